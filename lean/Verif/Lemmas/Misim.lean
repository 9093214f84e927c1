import Verif.Lemmas.CppGates
import Verif.Spec.MisimSpec
import Verif.Props.DDProps
import Verif.Props.TwoLineProps
/- Gate diagrams of the simulator, and the operators of the Python gates. -/
namespace Qudits.DD
open Spec Matrix Classical

variable {n : Nat} {d : Fin n → Nat} {H : Hashes}

theorem lift_ok {α : Type} (a : α) (t : Tables) : lift (.ok a) t = .ok (a, t) := rfl

theorem bind_run {α β : Type} {x : M α} {f : α → M β} {t t' : Tables} {a : α} (h : x t = .ok (a, t')) : (x >>= f) t = f a t' := by
  change (StateT.bind x f) t = _
  unfold StateT.bind
  simp only [bind, Except.bind, h]

theorem controlled_nil (lev : Reg d) (A : Matrix (Reg d) (Reg d) ℂ) : controlled ([] : List (Fin n)).toFinset lev A = A := by
  funext a b
  unfold controlled
  rw [if_pos]
  intro i hi
  simp at hi

/-- the adjoint of a diagram for an operator on one line -/
theorem dag_ok {t : Tables} (ht : Reachable H t) (q : Fin n) (e : Edge (regs d)) (he : Proper .mat (regs d) e)
    (hq : ActsOnLine q (matOf d e)) (dag : Bool) :
    ∃ r t', (if dag then conjugateTranspose H (regs d) e else pure e) t = .ok (r, t') ∧ Reachable H t' ∧ Proper .mat (regs d) r ∧
      matOf d r = if dag then (matOf d e)ᴴ else matOf d e := by
  cases dag
  · exact ⟨e, t, rfl, ht, he, rfl⟩
  · obtain ⟨_, _, r, t', hr⟩ := C16_one_line ht q e e he he hq hq
    obtain ⟨h1, h2, h3⟩ := C16_adjoint_partial ht e r he t' hr
    exact ⟨r, t', hr, h1, h2, h3⟩

theorem reverse_get (d : Fin n → Nat) (q : Fin n) : (regs d).reverse[(q : Nat)]? = some (d q) := by
  rw [regs_reverse]; simp

/-! ### sums controlled by a level -/

/-- adds to the level of line `q` a number that depends on the level of line `c` -/
def shiftOp (d : Fin n → Nat) (c q : Fin n) (f : Nat → Nat) : Matrix (Reg d) (Reg d) ℂ :=
  fun x y => if (∀ i, i ≠ q → x i = y i) ∧ (x q : Nat) = (y q + f (y c)) % d q then 1 else 0

theorem shiftOp_congr (c q : Fin n) (f g : Nat → Nat) (x y : Reg d) (h : f (y c) = g (y c)) :
    shiftOp d c q f x y = shiftOp d c q g x y := by
  unfold shiftOp
  simp only [h]

theorem shiftOp_acts (c q : Fin n) (f : Nat → Nat) : ActsOnLine q (shiftOp d c q f) := by
  rintro x y ⟨i, hi, hne⟩
  unfold shiftOp
  rw [if_neg]
  rintro ⟨h, _⟩
  exact hne (h i hi)

theorem shiftOp_mul (c q : Fin n) (hcq : c ≠ q) (f g : Nat → Nat) :
    shiftOp d c q f * shiftOp d c q g = shiftOp d c q (fun l => f l + g l) := by
  funext x y
  rw [Matrix.mul_apply]
  have hpos : 0 < d q := by have := (y q).isLt; omega
  rw [Finset.sum_eq_single (Function.update y q ⟨(y q + g (y c)) % d q, Nat.mod_lt _ hpos⟩)]
  · unfold shiftOp
    rw [if_pos (c := (∀ i, i ≠ q → (Function.update y q (⟨(y q + g (y c)) % d q, Nat.mod_lt _ hpos⟩ : Fin (d q)) : Reg d) i = y i) ∧ _), mul_one]
    · have hagree : (∀ i, i ≠ q → x i = (Function.update y q (⟨(y q + g (y c)) % d q, Nat.mod_lt _ hpos⟩ : Fin (d q)) : Reg d) i) ↔
          ∀ i, i ≠ q → x i = y i := by
        constructor <;> intro h i hi
        · have := h i hi; rwa [Function.update_of_ne hi] at this
        · rw [Function.update_of_ne hi]; exact h i hi
      have hval : (((Function.update y q (⟨(y q + g (y c)) % d q, Nat.mod_lt _ hpos⟩ : Fin (d q)) : Reg d) q : Nat) +
          f ((Function.update y q (⟨(y q + g (y c)) % d q, Nat.mod_lt _ hpos⟩ : Fin (d q)) : Reg d) c)) % d q =
          (y q + (f (y c) + g (y c))) % d q := by
        rw [Function.update_self, Function.update_of_ne hcq]
        dsimp only
        rw [Nat.mod_add_mod]
        congr 1
        ring
      rw [hval]
      by_cases h : ∀ i, i ≠ q → x i = y i
      · by_cases h2 : (x q : Nat) = (y q + (f (y c) + g (y c))) % d q
        · rw [if_pos ⟨hagree.2 h, h2⟩, if_pos ⟨h, h2⟩]
        · rw [if_neg (fun k => h2 k.2), if_neg (fun k => h2 k.2)]
      · rw [if_neg (fun k => h (hagree.1 k.1)), if_neg (fun k => h k.1)]
    · refine ⟨fun i hi => Function.update_of_ne hi _ _, ?_⟩
      rw [Function.update_self]
  · intro z _ hz
    unfold shiftOp
    rw [if_neg (c := (∀ i, i ≠ q → z i = y i) ∧ _), mul_zero]
    rintro ⟨h1, h2⟩
    apply hz
    funext i
    by_cases hi : i = q
    · subst hi
      rw [Function.update_self]
      exact Fin.ext h2
    · rw [Function.update_of_ne hi]
      exact h1 i hi
  · intro h
    exact absurd (Finset.mem_univ _) h

theorem shiftOp_zero (c q : Fin n) : shiftOp d c q (fun _ => 0) = 1 := by
  funext x y
  unfold shiftOp
  rw [Matrix.one_apply]
  by_cases h : x = y
  · subst h
    rw [if_pos rfl, if_pos]
    exact ⟨fun _ _ => rfl, by rw [Nat.add_zero, Nat.mod_eq_of_lt (x q).isLt]⟩
  · rw [if_neg h, if_neg]
    rintro ⟨h1, h2⟩
    apply h
    funext i
    by_cases hi : i = q
    · subst hi
      rw [Nat.add_zero, Nat.mod_eq_of_lt (y i).isLt] at h2
      exact Fin.ext h2
    · exact h1 i hi

theorem makeIdent_reg (d : Fin n → Nat) : ∃ e, makeIdent (regs d) = .ok e ∧ Proper .mat (regs d) e ∧ matOf d e = 1 := by
  obtain ⟨e, he, hp, hv⟩ := makeIdent_ok (regs d)
  refine ⟨e, he, hp, ?_⟩
  funext x y
  refine (hv _ _ (levels_top x) (levels_top y)).trans ?_
  rw [Matrix.one_apply]
  by_cases h : x = y
  · rw [if_pos h, if_pos (by rw [h])]
  · rw [if_neg h, if_neg (fun k => h (top_injective k))]

/-- a register state with one line at a given level -/
def levelOf (hpos : ∀ i, 0 < d i) (c : Fin n) (l : Fin (d c)) : Reg d :=
  Function.update (fun i => ⟨0, hpos i⟩) c l

theorem levelOf_self (hpos : ∀ i, 0 < d i) (c : Fin n) (l : Fin (d c)) : levelOf hpos c l c = l := Function.update_self ..

/-- the gate diagram with one control -/
theorem ctlGate_ok (hpos : ∀ i, 0 < d i) (c q : Fin n) (hcq : c ≠ q) (l : Fin (d c)) (m : List ℂ) (hm : d q * d q ≤ m.length) :
    ∃ e, makeGateDD (regs d) m [((c : Nat), (l : Nat))] q = .ok e ∧ Proper .mat (regs d) e ∧ ActsOnLine q (matOf d e) ∧
      ∀ x y, matOf d e x y = if y c = l then (if ∀ i, i ≠ q → x i = y i then m.getD (d q * x q + y q) 0 else 0) else if x = y then 1 else 0 := by
  obtain ⟨e, h1, h2, h3, h4⟩ := C17_makeGateDD q m hm [c] (levelOf hpos c l) (List.pairwise_singleton _ _) (by simpa using Ne.symm hcq)
  rw [List.map_cons, List.map_nil, levelOf_self] at h1
  refine ⟨e, h1, h2, h3, fun x y => ?_⟩
  rw [h4]
  unfold controlled embed1
  have : (∀ i ∈ [c].toFinset, y i = levelOf hpos c l i) ↔ y c = l := by
    rw [List.toFinset_cons, List.toFinset_nil]
    simp only [Finset.mem_insert, Finset.notMem_empty, or_false, forall_eq, levelOf_self]
  by_cases h : y c = l
  · rw [if_pos (this.2 h), if_pos h]
    by_cases h' : ∀ i, i ≠ q → x i = y i
    · rw [if_pos h', if_pos h']
    · rw [if_neg h', if_neg h']
  · rw [if_neg (fun k => h (this.1 k)), if_neg h]

/-- the controlled shift -/
theorem ctlShift_ok (hpos : ∀ i, 0 < d i) (c q : Fin n) (hcq : c ≠ q) (l : Fin (d c)) (m : List ℂ) (hm : m.length = d q * d q)
    (he : ∀ i j, i < d q → j < d q → m.getD (d q * i + j) 0 = if i = (j + 1) % d q then 1 else 0) :
    ∃ e, makeGateDD (regs d) m [((c : Nat), (l : Nat))] q = .ok e ∧ Proper .mat (regs d) e ∧
      matOf d e = shiftOp d c q fun k => if k = l then 1 else 0 := by
  obtain ⟨e, h1, h2, _, h4⟩ := ctlGate_ok hpos c q hcq l m (le_of_eq hm.symm)
  refine ⟨e, h1, h2, ?_⟩
  funext x y
  rw [h4]
  by_cases h : y c = l
  · rw [if_pos h, shiftOp_congr c q (fun k => if k = (l : Nat) then 1 else 0) (fun _ => 1) x y (if_pos (congrArg Fin.val h))]
    unfold shiftOp
    rw [he _ _ (x q).isLt (y q).isLt]
    by_cases ha : ∀ i, i ≠ q → x i = y i
    · rw [if_pos ha]
      by_cases hb : (x q : Nat) = (y q + 1) % d q
      · rw [if_pos hb, if_pos ⟨ha, hb⟩]
      · rw [if_neg hb, if_neg (fun k => hb k.2)]
    · rw [if_neg ha, if_neg (fun k => ha k.1)]
  · rw [if_neg h, shiftOp_congr c q (fun k => if k = (l : Nat) then 1 else 0) (fun _ => 0) x y (if_neg (fun k => h (Fin.ext k))), shiftOp_zero,
      Matrix.one_apply]

theorem mulTimes_ok (c q : Fin n) (hcq : c ≠ q) (gate : Edge (regs d)) (hg : Proper .mat (regs d) gate) (g : Nat → Nat)
    (hgm : matOf d gate = shiftOp d c q g) : ∀ (k : Nat) (res : Edge (regs d)) (f : Nat → Nat) (t : Tables), Reachable H t →
      Proper .mat (regs d) res → matOf d res = shiftOp d c q f →
      ∃ r t', mulTimes H (regs d) gate k res t = .ok (r, t') ∧ Reachable H t' ∧ Proper .mat (regs d) r ∧
        matOf d r = shiftOp d c q fun l => f l + k * g l
  | 0, res, f, t, ht, hp, hm => ⟨res, t, rfl, ht, hp, by simpa using hm⟩
  | k + 1, res, f, t, ht, hp, hm => by
    obtain ⟨_, ⟨r, t', hr⟩, _⟩ := C16_one_line ht q res gate hp hg (by rw [hm]; exact shiftOp_acts c q f)
      (by rw [hgm]; exact shiftOp_acts c q g)
    obtain ⟨h1, h2, h3⟩ := C16_multiply_matrix_partial ht res gate r hp hg t' hr
    rw [hm, hgm, shiftOp_mul c q hcq] at h3
    obtain ⟨r2, t2, e1, e2, e3, e4⟩ := mulTimes_ok c q hcq gate hg g hgm k r _ t' h1 h2 h3
    refine ⟨r2, t2, ?_, e2, e3, ?_⟩
    · unfold mulTimes
      rw [bind_run hr]
      exact e1
    · rw [e4]
      congr 1
      funext l
      ring

theorem csum_ok (hpos : ∀ i, 0 < d i) (c q : Fin n) (hcq : c ≠ q) (h2 : 2 ≤ d q) (h7 : d q ≤ 7) (dag : Bool) (t : Tables)
    (ht : Reachable H t) :
    ∃ r t', csum H (regs d) c q dag t = .ok (r, t') ∧ Reachable H t' ∧ Proper .mat (regs d) r ∧
      matOf d r = if dag then (shiftOp d c q id)ᴴ else shiftOp d c q id := by
  obtain ⟨m, A, hm, hA, hlen, _, _, hent⟩ := xMat_ok h2 h7
  obtain ⟨A', hA', _, _, hx⟩ := xArray_ok (d q)
  obtain rfl : A = A' := Except.ok.inj (hA.symm.trans hA')
  obtain ⟨e0, he0, hp0, hm0⟩ := makeIdent_reg d
  have loop : ∀ k, k ≤ d c → ∃ r t', ((List.range k).foldlM (fun res i => do
          let gate ← lift (makeGateDD (regs d) m [((c : Nat), i)] q)
          mulTimes H (regs d) gate i res) e0 : M (Edge (regs d))) t = .ok (r, t') ∧ Reachable H t' ∧ Proper .mat (regs d) r ∧
      matOf d r = shiftOp d c q fun l => if l < k then l else 0 := by
    intro k
    induction k with
    | zero => intro _; exact ⟨e0, t, rfl, ht, hp0, by rw [hm0, ← shiftOp_zero c q]; rfl⟩
    | succ k ih =>
      intro hk
      obtain ⟨r, t', h1, h3, h4, h5⟩ := ih (by omega)
      obtain ⟨g, hg1, hg2, hg3⟩ := ctlShift_ok hpos c q hcq ⟨k, hk⟩ m hlen (fun i j hi hj => by rw [hent i j hi hj, hx i j hj])
      obtain ⟨r2, t2, e1, e2, e3, e4⟩ := mulTimes_ok c q hcq g hg2 _ hg3 k r _ t' h3 h4 h5
      refine ⟨r2, t2, ?_, e2, e3, ?_⟩
      · rw [List.range_succ, List.foldlM_append, bind_run h1]
        rw [List.foldlM_cons]
        have hstep : (do
          let gate ← lift (makeGateDD (regs d) m [((c : Nat), k)] q)
          mulTimes H (regs d) gate k r : M (Edge (regs d))) t' = .ok (r2, t2) := by
          rw [show makeGateDD (regs d) m [((c : Nat), k)] q = .ok g from hg1, bind_run (lift_ok g t')]
          exact e1
        rw [bind_run hstep]
        rfl
      · rw [e4]
        congr 1
        funext l
        dsimp only
        rcases Nat.lt_trichotomy l k with h | h | h
        · rw [if_pos h, if_neg (by omega), if_pos (by omega)]; omega
        · subst h; simp
        · rw [if_neg (by omega), if_neg (by omega), if_neg (by omega)]; rfl
  obtain ⟨r, t1, h1, h3, h4, h5⟩ := loop (d c) (le_refl _)
  have h6 : matOf d r = shiftOp d c q id := by
    rw [h5]
    funext x y
    exact shiftOp_congr c q _ _ x y (if_pos (y c).isLt)
  obtain ⟨r2, t2, k1, k2, k3, k4⟩ := dag_ok h3 q r h4 (by rw [h6]; exact shiftOp_acts c q id) dag
  refine ⟨r2, t2, ?_, k2, k3, by rw [k4, h6]⟩
  unfold csum
  rw [he0, bind_run (lift_ok e0 t), reverse_get]
  dsimp only
  rw [hm]
  dsimp only
  rw [reverse_get]
  dsimp only
  rw [bind_run h1]
  exact k1

/-! ### the operators of the Python gates -/

theorem dag_iterate (g : Gate) : ∀ k, ∃ name dg, Gate.dag^[k] g = { g with name := name, dagger := dg } ∧ (g.dagger = false → dg = decide (k ≠ 0))
  | 0 => ⟨g.name, g.dagger, rfl, fun h => by rw [h]; rfl⟩
  | k + 1 => by
    obtain ⟨name, dg, h, _⟩ := dag_iterate g k
    refine ⟨name ++ "_dag", true, ?_, fun _ => by simp⟩
    rw [Function.iterate_succ_apply', h]
    rfl

/-- flags and operator of a gate that may have been marked as adjoint -/
theorem made_ok (d : Fin n → Nat) (g : Gate) (t : Target) (ts : List (Fin n)) (h : Made d g t ts) (arr : Arr2 ℂ) (hne : ts ≠ [])
    (hnd : ts.Nodup) (hr : arr.rows = ∏ i ∈ ts.toFinset, d i) (hc : arr.cols = ∏ i ∈ ts.toFinset, d i) :
    Flagged d g ts ∧ g.target = t ∧ g.controls = none ∧
      HasOperator d g arr (if g.dagger then (embed ts.toFinset (onLines d ts.toFinset arr.at'))ᴴ
        else embed ts.toFinset (onLines d ts.toFinset arr.at')) := by
  obtain ⟨ht, name, g0, k, hg0, rfl⟩ := h
  obtain ⟨hf, _⟩ := constructed_flagged d name t ts arr g0 hne hnd ht hg0 hr hc
  have hfields : g0.target = t ∧ g0.controls = none := by
    unfold Gate.init at hg0
    simp only [bind, Except.bind, pure, Except.pure] at hg0
    split at hg0
    · cases hg0
    · injection hg0 with hg0
      subst hg0
      exact ⟨rfl, rfl⟩
  obtain ⟨nm, dg, hk, _⟩ := dag_iterate g0 k
  rw [hk]
  refine ⟨⟨hf.dims, hf.lines, hf.nodup, hf.nonempty, hf.type, hf.long⟩, hfields.1, hfields.2, ?_⟩
  obtain ⟨B, hB, hBr, hBc, hBe⟩ := C12_full_register d { g0 with name := nm, dagger := dg } ts arr hf.dims
    (by rw [← ht, ← hfields.1]) hfields.2 hnd hne hr hc
  refine ⟨B, hB, hBr, hBc, fun x y => ?_⟩
  rw [hBe]
  cases dg
  · rfl
  · change embed ts.toFinset (onLines d ts.toFinset arr.conjT.at') x y = _
    rw [if_pos rfl, embed_conjTranspose]
    rfl

theorem embed_single (d : Fin n → Nat) (q : Fin n) (arr : Arr2 ℂ) :
    embed [q].toFinset (onLines d [q].toFinset arr.at') = embed1 (X := LvOf d) q (fun i j : Fin (d q) => arr.at' i j) := by
  have hS : [q].toFinset = {q} := by simp
  rw [hS]
  funext x y
  unfold embed embed1
  have e : ∀ z : Reg d, subIdx d {q} (restr {q} z) = z q := by
    intro z
    rw [subIdx_restr, Finset.sort_singleton]
    simp [index]
  by_cases h : ∀ i, i ≠ q → x i = y i
  · rw [if_pos h, if_pos (fun i hi => h i (by simpa using hi))]
    unfold onLines
    rw [e, e]
  · rw [if_neg h, if_neg (fun k => h fun i hi => k i (by simpa using hi))]

/-- what both simulators have to know about a gate -/
def SimAgree (H : Hashes) (d : Fin n → Nat) (p : PyGate) : Prop :=
  ∃ (arr : Arr2 ℂ) (M : Matrix (Reg d) (Reg d) ℂ), p.array = .ok arr ∧ (∃ ls, Flagged d p.gate ls) ∧ HasOperator d p.gate arr M ∧
    ∀ t, Reachable H t → ∃ e t', getGate H (regs d) (readInstr p) t = .ok (e, t') ∧ Reachable H t' ∧ Proper .mat (regs d) e ∧
      matOf d e = M

theorem tableDim_ok {k : Nat} (h2 : 2 ≤ k) (h7 : k ≤ 7) : tableDim [k] = some k := by
  unfold tableDim
  dsimp only
  rw [if_pos ⟨h2, h7⟩]

/-- a gate on one line, once its table is known to be the Python array -/
theorem single_agree (hpos : ∀ i, 0 < d i) (g : Gate) (q : Fin n) (tag : String) (params : Params) (hg : Made d g (.one (q : Nat)) [q])
    (m : List ℂ) (A : Arr2 ℂ) (hcx : tag ≠ "cx") (hcs : tag ≠ "csum")
    (hm : singleMat tag [d q] params = .ok (some m)) (hA : (⟨g, tag, [d q], params⟩ : PyGate).array = .ok A) (hs : Same (d q) m A) :
    SimAgree H d ⟨g, tag, [d q], params⟩ := by
  obtain ⟨hlen, hr, hc, hent⟩ := hs
  have hprod : ∏ i ∈ [q].toFinset, d i = d q := by simp
  obtain ⟨hf, htg, hctl, hop⟩ := made_ok d g _ [q] hg A (by simp) (by simp) (by rw [hr, hprod]) (by rw [hc, hprod])
  rw [embed_single] at hop
  refine ⟨A, _, hA, ⟨[q], hf⟩, hop, fun t ht => ?_⟩
  obtain ⟨e, he, hp, hq, hmat⟩ := C17_makeGateDD (d := d) q m (le_of_eq hlen.symm) [] (fun i => ⟨0, hpos i⟩) List.Pairwise.nil (by simp)
  rw [controlled_nil] at hmat
  have hmat' : matOf d e = embed1 (X := LvOf d) q (fun i j : Fin (d q) => A.at' i j) := by
    rw [hmat]
    congr 1
    funext i j
    exact hent i j i.isLt j.isLt
  obtain ⟨r, t', h1, h2, h3, h4⟩ := dag_ok ht q e hp hq g.dagger
  refine ⟨r, t', ?_, h2, h3, by rw [h4, hmat']⟩
  unfold getGate readInstr
  dsimp only
  rw [htg]
  change (if tag = "cx" then _ else if tag = "csum" then _ else _ : M (Edge (regs d))) t = _
  rw [if_neg hcx, if_neg hcs, hm, bind_run (lift_ok _ t)]
  dsimp only
  rw [show makeGateDD (regs d) m [] ((q : Nat) : Int).toNat = .ok e from he, bind_run (lift_ok e t)]
  exact h1

theorem plain_agree (hpos : ∀ i, 0 < d i) (g : Gate) (q : Fin n) (tag : String) (hg : Made d g (.one (q : Nat)) [q]) (h2 : 2 ≤ d q)
    (h7 : d q ≤ 7) (htag : tag ∈ ["x", "z", "h"]) : SimAgree H d ⟨g, tag, [d q], .none⟩ := by
  have htd := tableDim_ok h2 h7
  simp only [List.mem_cons, List.not_mem_nil, or_false] at htag
  rcases htag with rfl | rfl | rfl
  · obtain ⟨m, A, hm, hA, hs⟩ := xMat_ok h2 h7
    refine single_agree hpos g q "x" .none hg m A (by decide) (by decide) ?_ hA hs
    simp [singleMat, htd, hm]
  · obtain ⟨A, hA, hs⟩ := zMat_ok h2
    refine single_agree hpos g q "z" .none hg _ A (by decide) (by decide) ?_ hA hs
    simp [singleMat, htd]
  · obtain ⟨m, A, hm, hA, hs⟩ := hMat_ok h2 h7
    refine single_agree hpos g q "h" .none hg m A (by decide) (by decide) ?_ hA hs
    simp [singleMat, htd, hm]

theorem s_agree (hpos : ∀ i, 0 < d i) (g : Gate) (q : Fin n) (hg : Made d g (.one (q : Nat)) [q]) (h2 : 2 ≤ d q)
    (h7 : d q ≤ 7) (hprime : (d q).Prime) : SimAgree H d ⟨g, "s", [d q], .none⟩ := by
  obtain ⟨A, hA, hs⟩ := sMat_ok h2
  refine single_agree hpos g q "s" .none hg _ A (by decide) (by decide) ?_ ?_ hs
  · simp [singleMat, tableDim_ok h2 h7]
  · change (do sInit (d q); sArray (d q)) = _
    rw [(C51_s_prime (d q)).2 hprime]
    exact hA

theorem two_le {k : Nat} {a b : Fin k} (hab : a < b) : 2 ≤ k := by
  have : (a : Nat) < b := hab
  have := b.isLt
  omega

theorem getSize_nat (l : List PVal) (k a : Nat) (h : l[k]? = some (.int (a : Int))) : getSize l k = .ok a := by
  unfold getSize
  rw [h]
  dsimp only
  rw [if_pos (by omega)]
  rfl

theorem rxy_agree (hpos : ∀ i, 0 < d i) (g : Gate) (q : Fin n) (a b : Fin (d q)) (theta phi : ℝ) (hg : Made d g (.one (q : Nat)) [q])
    (h7 : d q ≤ 7) (hab : a < b) :
    SimAgree H d ⟨g, "rxy", [d q], .list [.int (a : Nat), .int (b : Nat), .flt theta, .flt phi]⟩ := by
  obtain ⟨m, r, A, hm, hr, hA, hs⟩ := rxy_ok hab theta phi
  refine single_agree hpos g q "rxy" _ hg m A (by decide) (by decide) ?_ ?_ hs
  · simp [singleMat, tableDim_ok (two_le hab) h7, hm, paramList, getSize, getFlt, bind, Except.bind, pure, Except.pure]
  · change (do rArray (d q) (← rInit (d q) _)) = _
    rw [hr]
    exact hA

theorem rz_agree (hpos : ∀ i, 0 < d i) (g : Gate) (q : Fin n) (a b : Fin (d q)) (phi : ℝ) (hg : Made d g (.one (q : Nat)) [q])
    (h7 : d q ≤ 7) (hab : a < b) :
    SimAgree H d ⟨g, "rz", [d q], .list [.int (a : Nat), .int (b : Nat), .flt phi]⟩ := by
  obtain ⟨m, r, A, hm, hr, hA, hs⟩ := rz_ok hab phi
  refine single_agree hpos g q "rz" _ hg m A (by decide) (by decide) ?_ ?_ hs
  · simp [singleMat, tableDim_ok (two_le hab) h7, hm, paramList, getSize, getFlt, bind, Except.bind, pure, Except.pure]
  · change (do rzArray (d q) (← rzInit (d q) _)) = _
    rw [hr]
    exact hA

theorem rh_agree (hpos : ∀ i, 0 < d i) (g : Gate) (q : Fin n) (a b : Fin (d q)) (hg : Made d g (.one (q : Nat)) [q])
    (h7 : d q ≤ 7) (hab : a < b) :
    SimAgree H d ⟨g, "rh", [d q], .list [.int (a : Nat), .int (b : Nat)]⟩ := by
  obtain ⟨m, r, A, hm, hr, hA, hs⟩ := rh_ok hab
  refine single_agree hpos g q "rh" _ hg m A (by decide) (by decide) ?_ ?_ hs
  · simp [singleMat, tableDim_ok (two_le hab) h7, hm, paramList, getSize, bind, Except.bind, pure, Except.pure]
  · change (do rhArray (d q) (← levelsInit (d q) _)) = _
    rw [hr]
    exact hA

theorem virtrz_agree (hpos : ∀ i, 0 < d i) (g : Gate) (q : Fin n) (a : Fin (d q)) (phi : ℝ) (hg : Made d g (.one (q : Nat)) [q])
    (h2 : 2 ≤ d q) (h7 : d q ≤ 7) : SimAgree H d ⟨g, "virtrz", [d q], .list [.int (a : Nat), .flt phi]⟩ := by
  obtain ⟨m, A, hm, hA, hs⟩ := virtrz_ok a phi
  refine single_agree hpos g q "virtrz" _ hg m A (by decide) (by decide) ?_ hA hs
  simp [singleMat, tableDim_ok h2 h7, hm, paramList, getSize, getFlt, bind, Except.bind, pure, Except.pure]

/-- the operator of an undaggered gate on two lines is what C09 says it is -/
theorem embed_pair (d : Fin n → Nat) (c q : Fin n) (hcq : c ≠ q) (arr : Arr2 ℂ) (hr : arr.rows = d c * d q) (hc : arr.cols = d c * d q)
    (A : Arr2 ℂ) (hA : (⟨List.ofFn d, "", .two, .many [((c : Nat) : Int), ((q : Nat) : Int)], none, false, false⟩ : Gate).toMatrix arr 2 = .ok A)
    (x y : Reg d) : embed [c, q].toFinset (onLines d [c, q].toFinset arr.at') x y = A.at' (idx d x) (idx d y) := by
  have hprod : ∏ i ∈ [c, q].toFinset, d i = d c * d q := by simp [hcq]
  obtain ⟨B, hB, _, _, hBe⟩ := C12_full_register d ⟨List.ofFn d, "", .two, .many [((c : Nat) : Int), ((q : Nat) : Int)], none, false, false⟩ [c, q] arr rfl
    rfl rfl (by simp [hcq]) (by simp) (by rw [hr, hprod]) (by rw [hc, hprod])
  rw [hA] at hB
  cases hB
  rw [hBe]
  rfl

theorem csum_agree (hpos : ∀ i, 0 < d i) (g : Gate) (c q : Fin n) (hg : Made d g (.many [(c : Nat), (q : Nat)]) [c, q]) (hcq : c ≠ q)
    (h2 : 2 ≤ d q) (h7 : d q ≤ 7) : SimAgree H d ⟨g, "csum", [d c, d q], .none⟩ := by
  obtain ⟨arr, A, harr, hA, _, _, hent⟩ := C09_csum_register d
    ⟨List.ofFn d, "", .two, .many [((c : Nat) : Int), ((q : Nat) : Int)], none, false, false⟩ c q hcq rfl rfl rfl rfl
  obtain ⟨arr', harr', hr, hc, _⟩ := csumArray_ok (c : Nat) (q : Nat) (d c) (d q)
  obtain rfl : arr = arr' := Except.ok.inj (harr.symm.trans harr')
  have hprod : ∏ i ∈ [c, q].toFinset, d i = d c * d q := by simp [hcq]
  obtain ⟨hf, htg, hctl, hop⟩ := made_ok d g _ [c, q] hg arr (by simp) (by simp [hcq]) (by rw [hr, hprod]) (by rw [hc, hprod])
  have hemb : embed [c, q].toFinset (onLines d [c, q].toFinset arr.at') = shiftOp d c q id := by
    funext x y
    rw [embed_pair d c q hcq arr hr hc A hA, hent]
    rfl
  rw [hemb] at hop
  refine ⟨arr, _, ?_, ⟨[c, q], hf⟩, hop, fun t ht => ?_⟩
  · unfold PyGate.array
    dsimp only
    rw [htg]
    exact harr
  · obtain ⟨r, t', h1, h3, h4, h5⟩ := csum_ok (H := H) hpos c q hcq h2 h7 g.dagger t ht
    refine ⟨r, t', ?_, h3, h4, h5⟩
    unfold getGate readInstr
    dsimp only
    rw [htg]
    exact h1

theorem cx_agree (hpos : ∀ i, 0 < d i) (g : Gate) (c q : Fin n) (l : Fin (d c)) (a b : Fin (d q)) (phi : ℝ)
    (hg : Made d g (.many [(c : Nat), (q : Nat)]) [c, q]) (hcq : c ≠ q) (h7 : d q ≤ 7) (hab : a < b) (hp0 : 0 ≤ phi) (hp1 : phi ≤ 2 * Real.pi) :
    SimAgree H d ⟨g, "cx", [d c, d q], .list [.int (a : Nat), .int (b : Nat), .int (l : Nat), .flt phi]⟩ := by
  obtain ⟨p, arr, A, hp, harr, hA, _, _, hent⟩ := C09_cex_register d
    ⟨List.ofFn d, "", .two, .many [((c : Nat) : Int), ((q : Nat) : Int)], none, false, false⟩ c q hcq rfl rfl rfl rfl a b hab (l : Nat) phi ⟨hp0, hp1⟩
  have hp' : p = ⟨(a : Nat), (b : Nat), (l : Nat), phi⟩ := by
    have hl' : ((a : Nat) : Int) < ((b : Nat) : Int) := by exact_mod_cast hab
    have : cexInit (.list [.int (a : Nat), .int (b : Nat), .int (l : Nat), .flt phi]) = .ok ⟨(a : Nat), (b : Nat), (l : Nat), phi⟩ := by
      simp only [cexInit, needInt, needFlt, bind, Except.bind, pure, Except.pure, List.getElem?_cons_zero,
        List.getElem?_cons_succ]
      rw [if_pos ⟨by omega, hl', hp0, hp1⟩]
    exact Except.ok.inj (hp.symm.trans this)
  obtain ⟨arr', harr', hr, hc, _⟩ := cexArray_ok (c : Nat) (q : Nat) (d c) (d q) p a b hab (by rw [hp']) (by rw [hp'])
  obtain rfl : arr = arr' := Except.ok.inj (harr.symm.trans harr')
  have hprod : ∏ i ∈ [c, q].toFinset, d i = d c * d q := by simp [hcq]
  obtain ⟨hf, htg, hctl, hop⟩ := made_ok d g _ [c, q] hg arr (by simp) (by simp [hcq]) (by rw [hr, hprod]) (by rw [hc, hprod])
  obtain ⟨m, hm, hlen, hme⟩ := embX_ok hab phi
  obtain ⟨e, he1, he2, he3, he4⟩ := ctlGate_ok hpos c q hcq l m (le_of_eq hlen.symm)
  have hemb : embed [c, q].toFinset (onLines d [c, q].toFinset arr.at') = matOf d e := by
    funext x y
    rw [embed_pair d c q hcq arr hr hc A hA, hent, he4]
    by_cases hag : ∀ i, i ≠ q → x i = y i
    · rw [if_pos hag]
      by_cases hl : y c = l
      · rw [if_pos hl, if_pos hag, if_neg (fun h => h (by rw [hl])), hme _ _ (x q).isLt (y q).isLt, cexOp_entry a b _ _ (ne_of_lt hab)]
      · have hl' : ((y c : Nat) : Int) ≠ ((l : Nat) : Int) := fun h => hl (Fin.ext (Int.ofNat.inj h))
        rw [if_neg hl, if_pos hl']
        by_cases hxy : x = y
        · rw [if_pos hxy, if_pos (by rw [hxy])]
        · rw [if_neg hxy, if_neg]
          intro hq
          apply hxy
          funext i
          by_cases hi : i = q
          · subst hi; exact hq
          · exact hag i hi
    · rw [if_neg hag]
      by_cases hl : y c = l
      · rw [if_pos hl, if_neg hag]
      · rw [if_neg hl, if_neg (fun h => hag (fun i _ => by rw [h]))]
  rw [hemb] at hop
  refine ⟨arr, _, ?_, ⟨[c, q], hf⟩, hop, fun t ht => ?_⟩
  · unfold PyGate.array
    dsimp only
    rw [htg]
    dsimp only
    rw [hp]
    exact harr
  · obtain ⟨r, t', h1, h3, h4, h5⟩ := dag_ok ht q e he2 he3 g.dagger
    refine ⟨r, t', ?_, h3, h4, h5⟩
    unfold getGate readInstr
    dsimp only
    rw [htg]
    change (if "cx" = "cx" then _ else _ : M (Edge (regs d))) t = _
    rw [if_pos rfl]
    change (do
      let pl ← lift (.ok [.int (a : Nat), .int (b : Nat), .int (l : Nat), .flt phi])
      let a ← lift (getSize pl 0)
      let b ← lift (getSize pl 1)
      let level ← lift (getSize pl 2)
      let phi ← lift (getFlt pl 3)
      cex H (regs d) level phi a b c q g.dagger : M (Edge (regs d))) t = _
    rw [bind_run (lift_ok _ t), getSize_nat _ 0 a rfl, bind_run (lift_ok _ t), getSize_nat _ 1 b rfl, bind_run (lift_ok _ t),
      getSize_nat _ 2 l rfl, bind_run (lift_ok _ t), show getFlt [.int (a : Nat), .int (b : Nat), .int (l : Nat), .flt phi] 3 = .ok phi from rfl,
      bind_run (lift_ok _ t)]
    unfold cex
    rw [reverse_get]
    dsimp only
    rw [if_pos ⟨two_le hab, h7⟩, hm, bind_run (lift_ok _ t), he1, bind_run (lift_ok _ t)]
    exact h1

theorem common_agree (H : Hashes) (hpos : ∀ i, 0 < d i) (p : PyGate) (h : Common d p) : SimAgree H d p := by
  cases h with
  | plain g q tag hg h2 h7 ht => exact plain_agree hpos g q tag hg h2 h7 ht
  | s g q hg h2 h7 hp => exact s_agree hpos g q hg h2 h7 hp
  | rxy g q a b theta phi hg h7 hab => exact rxy_agree hpos g q a b theta phi hg h7 hab
  | rz g q a b phi hg h7 hab => exact rz_agree hpos g q a b phi hg h7 hab
  | rh g q a b hg h7 hab => exact rh_agree hpos g q a b hg h7 hab
  | virtrz g q a phi hg h2 h7 => exact virtrz_agree hpos g q a phi hg h2 h7
  | cx g c q l a b phi hg hcq h7 hab hp0 hp1 => exact cx_agree hpos g c q l a b phi hg hcq h7 hab hp0 hp1
  | csum g c q hg hcq h2 h7 => exact csum_agree hpos g c q hg hcq h2 h7

end Qudits.DD
