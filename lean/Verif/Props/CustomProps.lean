import Verif.Lemmas.CustomGates
import Verif.Props.MisimProps
import Verif.Props.EndToEnd
/-
Property C82: gates that are given by arrays.
-/
namespace Qudits
open Spec Matrix Custom
variable {n : Nat}

/-- C82: the methods for gates given by an array return a gate for every line, or every list of lines that is not empty, whatever is passed as array. The
gate does not depend on it; the gate keeps the array object itself if it is an array of numbers, and no array otherwise. -/
theorem C82_accepts (d : Fin n → Nat) :
    (∀ q : Fin n, ∃ g, ∀ p, cuOne (List.ofFn d) q p none = .ok ⟨g, .stored (match p with | .array a true => some a | _ => none)⟩) ∧
    (∀ qs : List (Fin n), qs ≠ [] → ∃ g, ∀ p, cuTwo (List.ofFn d) (qs.map Fin.val) p none =
      .ok ⟨g, .stored (match p with | .array a true => some a | _ => none)⟩) ∧
    (∀ qs : List (Fin n), qs ≠ [] → ∃ g, ∀ p, cuMulti (List.ofFn d) (qs.map Fin.val) p none =
      .ok ⟨g, .stored (match p with | .array a true => some a | _ => none)⟩) ∧
    (∀ qs : List (Fin n), qs ≠ [] → ∃ g, randU (List.ofFn d) (qs.map Fin.val) = .ok ⟨g, .drawn⟩) := by
  have hst : ∀ p, storage p = (match p with | .array a true => some a | _ => none) := by
    intro p
    rcases p with _ | ⟨a, _ | _⟩ | _ <;> rfl
  have hdim : ∀ q : Fin n, dimensionAt (List.ofFn d) q = .ok (d q) := by
    intro q
    unfold dimensionAt
    rw [List.getElem?_ofFn]
    simp
  have hdims : ∀ qs : List (Fin n), ∃ ds, (qs.map Fin.val).mapM (dimensionAt (List.ofFn d)) = .ok ds := by
    intro qs
    induction qs with
    | nil => exact ⟨[], rfl⟩
    | cons q qs ih =>
      obtain ⟨ds, hds⟩ := ih
      refine ⟨d q :: ds, ?_⟩
      rw [List.map_cons, List.mapM_cons, hdim, hds]
      rfl
  have hgate : ∀ name ty t, Target.lines t ≠ [] → ∃ g, Gate.init (List.ofFn d) name ty t none = .ok g := by
    intro name ty t ht
    unfold Gate.init Gate.checkLongRange Gate.referenceLines Gate.controlLines
    simp only [bind, Except.bind, pure, Except.pure]
    rw [if_neg (by simpa using ht)]
    dsimp only
    split_ifs <;> exact ⟨_, rfl⟩
  have hne : ∀ qs : List (Fin n), qs ≠ [] → Target.lines (.many ((qs.map Fin.val).map Int.ofNat)) ≠ [] := by
    intro qs hqs
    simpa [Target.lines] using hqs
  refine ⟨?_, ?_, ?_, ?_⟩
  · intro q
    obtain ⟨g, hg⟩ := hgate ("CUo" ++ toString (d q)) .single (.one ((q : Nat) : Int)) (by simp [Target.lines])
    refine ⟨g, fun p => ?_⟩
    unfold cuOne Custom.init
    rw [hdim, hst]
    simp only [bind, Except.bind, pure, Except.pure]
    rw [hg]
  · intro qs hqs
    obtain ⟨ds, hds⟩ := hdims qs
    obtain ⟨g, hg⟩ := hgate ("CUt" ++ toString ds) .two _ (hne qs hqs)
    refine ⟨g, fun p => ?_⟩
    unfold cuTwo Custom.init
    rw [hds, hst]
    simp only [bind, Except.bind, pure, Except.pure]
    rw [hg]
  · intro qs hqs
    obtain ⟨ds, hds⟩ := hdims qs
    obtain ⟨g, hg⟩ := hgate ("CUm" ++ toString ds) .multi _ (hne qs hqs)
    refine ⟨g, fun p => ?_⟩
    unfold cuMulti Custom.init
    rw [hds, hst]
    simp only [bind, Except.bind, pure, Except.pure]
    rw [hg]
  · intro qs hqs
    obtain ⟨ds, hds⟩ := hdims qs
    obtain ⟨g, hg⟩ := hgate ("RandU" ++ toString ds) .multi _ (hne qs hqs)
    refine ⟨g, ?_⟩
    unfold randU
    rw [hds]
    simp only [bind, Except.bind, pure, Except.pure]
    rw [hg]

/-- C82: a circuit of gates with arrays of the right size, stored or drawn, on different lines, marked as adjoint or not, is simulated exactly: the result
is the product of the operators of the arrays, the first gate applied first, on the state with all lines at level 0. -/
theorem C82_simulated (d : Fin n → Nat) (hn : 0 < n) (hpos : ∀ i, 0 < d i) (mem draws : Nat → Arr2 ℂ) (os : List Obj) (lines : List (List (Fin n)))
    (As : List (Arr2 ℂ)) (hlen : As.length = os.length) (hlines : lines.length = os.length)
    (hA : ∀ i, i < os.length → arrayAt mem draws os i = As[i]?)
    (h : ∀ (i : Nat) o ts A, os[i]? = some o → lines[i]? = some ts → As[i]? = some A → UsedBy d o ts ∧ ts ≠ [] ∧ ts.Nodup ∧ Fits d ts A) :
    ∃ v, simulate mem draws (List.ofFn d) os = .ok v ∧
      Lists d v (((os.zip (lines.zip As)).map fun x => arrayOp d x.1 x.2.1 x.2.2).reverse.prod *ᵥ zeroState d) := by
  have harr := arrays_ok mem draws 0 os As hlen (by
    intro i hi
    rw [← hA i hi]
    unfold arrayAt
    split <;> simp_all)
  unfold simulate
  rw [harr]
  simp only [bind, Except.bind]
  apply C15_execute d hn hpos
  clear harr hA
  induction os generalizing lines As with
  | nil => exact .nil
  | cons o os ih =>
    obtain _ | ⟨A, As⟩ := As
    · cases hlen
    obtain _ | ⟨ts, lines⟩ := lines
    · cases hlines
    obtain ⟨h1, h2, h3, h4⟩ := h 0 o ts A rfl rfl rfl
    obtain ⟨f1, f2⟩ := used_ok h1 h2 h3 h4
    exact .cons ⟨⟨ts, f1⟩, f2⟩ (ih lines As (by simpa using hlen) (by simpa using hlines) (fun i o' ts' A' e1 e2 e3 => h (i + 1) o' ts' A' e1 e2 e3))

/-- C82: if all arrays are unitary, then the state returned has length 1. -/
theorem C82_normalised (d : Fin n → Nat) (hpos : ∀ i, 0 < d i) (os : List Obj) (lines : List (List (Fin n))) (As : List (Arr2 ℂ))
    (h : ∀ (i : Nat) o ts A, os[i]? = some o → lines[i]? = some ts → As[i]? = some A → UnitaryOn d ts A) :
    let psi := ((os.zip (lines.zip As)).map fun x => arrayOp d x.1 x.2.1 x.2.2).reverse.prod *ᵥ zeroState d
    star psi ⬝ᵥ psi = 1 := by
  intro psi
  have hU : ((os.zip (lines.zip As)).map fun x => arrayOp d x.1 x.2.1 x.2.2).reverse.prod ∈ unitaryGroup (Reg d) ℂ := by
    apply Submonoid.list_prod_mem
    intro M hM
    rw [List.mem_reverse, List.mem_map] at hM
    obtain ⟨⟨o, ts, A⟩, hx, rfl⟩ := hM
    obtain ⟨i, hi⟩ := List.mem_iff_getElem?.1 hx
    rw [List.getElem?_zip_eq_some, List.getElem?_zip_eq_some] at hi
    exact arrayOp_unitary o (h i o ts A hi.1 hi.2.1 hi.2.2)
  rw [norm_kept hU, zeroState_norm d hpos]

/-- C82: a gate with a unitary array and the marked gate with the same array after it bring the state back. -/
theorem C82_inverse (d : Fin n → Nat) (hn : 0 < n) (hpos : ∀ i, 0 < d i) (mem draws : Nat → Arr2 ℂ) (o : Obj) (ts : List (Fin n)) (hne : ts ≠ [])
    (hnd : ts.Nodup) (hmade : MadeBy d o ts) (hnew : o.gate.dagger = false) (a : Nat) (hsrc : o.source = .stored (some a)) (hA : Fits d ts (mem a))
    (hU : UnitaryOn d ts (mem a)) (k : Nat) :
    ∃ v, simulate mem draws (List.ofFn d) [o, Obj.dag^[k + 1] o] = .ok v ∧ Lists d v (zeroState d) := by
  have hd : (Obj.dag^[k + 1] o).gate.dagger = true := by
    rw [Function.iterate_succ_apply']
    rfl
  obtain ⟨v, h1, h2⟩ := C82_simulated d hn hpos mem draws [o, Obj.dag^[k + 1] o] [ts, ts] [mem a, mem a] rfl rfl (by
    intro i hi
    have hs := (iterate_dag o (k + 1)).1.trans hsrc
    obtain ⟨g, s⟩ := o
    generalize hx : Obj.dag^[k + 1] ⟨g, s⟩ = x at hs
    obtain ⟨g', s'⟩ := x
    simp only at hs hsrc
    subst hs hsrc
    match i, hi with
    | 0, _ => rfl
    | 1, _ => rfl) (by
    intro i o' ts' A' e1 e2 e3
    match i with
    | 0 =>
      cases e1; cases e2; cases e3
      exact ⟨⟨o, 0, hmade, rfl⟩, hne, hnd, hA⟩
    | 1 =>
      cases e1; cases e2; cases e3
      exact ⟨⟨o, k + 1, hmade, rfl⟩, hne, hnd, hA⟩)
  refine ⟨v, h1, ?_⟩
  have hone : (([o, Obj.dag^[k + 1] o].zip ([ts, ts].zip [mem a, mem a])).map fun x => arrayOp d x.1 x.2.1 x.2.2).reverse.prod = 1 := by
    have hu : onLines d ts.toFinset (mem a).at' ∈ unitaryGroup _ ℂ := by
      rw [onLines_eq, submatrix_mem_unitary]
      exact hU
    have h1 : (onLines d ts.toFinset (mem a).at')ᴴ * onLines d ts.toFinset (mem a).at' = 1 := mem_unitaryGroup_iff'.1 hu
    simp only [List.zip_cons_cons, List.zip_nil_left, List.map_cons, List.map_nil, List.reverse_cons, List.reverse_nil, List.nil_append,
      List.cons_append, List.prod_cons, List.prod_nil, mul_one]
    unfold arrayOp
    rw [if_pos hd, if_neg (by rw [hnew]; simp), embed_mul, h1, embed_one]
  rwa [hone, one_mulVec] at h2

/-- C82 is violated for the order of lines: an array is applied with the levels in ascending order of the lines, whatever the order in which the lines
are named. -/
theorem C82_order_violated (d : Fin n → Nat) (hn : 0 < n) (hpos : ∀ i, 0 < d i) (mem draws : Nat → Arr2 ℂ) (i j : Fin n) (hij : i ≠ j) (a : Nat)
    (hA : Fits d [i, j] (mem a)) (o o' : Obj) (h : cuTwo (List.ofFn d) [i, j] (.array a true) none = .ok o)
    (h' : cuTwo (List.ofFn d) [j, i] (.array a true) none = .ok o') :
    ∃ v, simulate mem draws (List.ofFn d) [o] = .ok v ∧ simulate mem draws (List.ofFn d) [o'] = .ok v := by
  obtain ⟨-, htwo, -, -⟩ := C82_accepts d
  obtain ⟨g, hg⟩ := htwo [i, j] (by simp)
  obtain ⟨g', hg'⟩ := htwo [j, i] (by simp)
  have ho : o = ⟨g, .stored (some a)⟩ := Except.ok.inj (h.symm.trans (hg (.array a true)))
  have ho' : o' = ⟨g', .stored (some a)⟩ := Except.ok.inj (h'.symm.trans (hg' (.array a true)))
  have hset : ([j, i] : List (Fin n)).toFinset = [i, j].toFinset := by
    ext x
    simp [or_comm]
  have hA' : Fits d [j, i] (mem a) := by
    unfold Fits
    rw [hset]
    exact hA
  have hm : MadeBy d o [i, j] := .inr (.inl ⟨_, rfl, h⟩)
  have hm' : MadeBy d o' [j, i] := .inr (.inl ⟨_, rfl, h'⟩)
  have hdg : o.gate.dagger = false ∧ o'.gate.dagger = false := by
    obtain ⟨_, _, _, e, -⟩ := made_init hm
    obtain ⟨_, _, _, e', -⟩ := made_init hm'
    exact ⟨(gateInit_fields e).2.2.2.1, (gateInit_fields e').2.2.2.1⟩
  obtain ⟨v, h1, h2⟩ := C82_simulated d hn hpos mem draws [o] [[i, j]] [mem a] rfl rfl (by
    intro k hk
    subst ho
    match k, hk with
    | 0, _ => rfl) (by
    intro k o1 ts1 A1 e1 e2 e3
    match k with
    | 0 =>
      cases e1; cases e2; cases e3
      exact ⟨⟨o, 0, hm, rfl⟩, by simp, by simpa using hij, hA⟩)
  obtain ⟨w, h3, h4⟩ := C82_simulated d hn hpos mem draws [o'] [[j, i]] [mem a] rfl rfl (by
    intro k hk
    subst ho'
    match k, hk with
    | 0, _ => rfl) (by
    intro k o1 ts1 A1 e1 e2 e3
    match k with
    | 0 =>
      cases e1; cases e2; cases e3
      exact ⟨⟨o', 0, hm', rfl⟩, by simp, by simpa using hij.symm, hA'⟩)
  have hop : arrayOp d o' [j, i] (mem a) = arrayOp d o [i, j] (mem a) := by
    unfold arrayOp
    rw [hdg.1, hdg.2, hset]
  refine ⟨v, h1, ?_⟩
  rw [h3]
  congr 1
  simp only [List.zip_cons_cons, List.zip_nil_left, List.map_cons, List.map_nil] at h2 h4
  rw [hop] at h4
  exact lists_unique h4 h2

/-- C82: an array of the wrong size on one line is accepted, and is refused only by the simulator. -/
theorem C82_wrong_size (d : Fin n → Nat) (hpos : ∀ i, 0 < d i) (mem draws : Nat → Arr2 ℂ) (q : Fin n) (a : Nat) (o : Obj)
    (h : cuOne (List.ofFn d) q (.array a true) none = .ok o) (hA : ¬((mem a).rows = d q ∧ (mem a).cols = d q)) :
    simulate mem draws (List.ofFn d) [o] = .error .valueError := by
  have hdim : dimensionAt (List.ofFn d) q = .ok (d q) := by
    unfold dimensionAt
    rw [List.getElem?_ofFn]
    simp
  have ho : o = ⟨⟨List.ofFn d, "CUo" ++ toString (d q), .single, .one ((q : Nat) : Int), none, false, false⟩, .stored (some a)⟩ := by
    unfold cuOne at h
    rw [hdim] at h
    exact (Except.ok.inj h).symm
  subst ho
  set sizes := List.ofFn d with hsz
  have hlen : sizes.length = n := List.length_ofFn
  have hget : sizes[(q : Nat)]? = some (d q) := by
    rw [hsz, List.getElem?_ofFn]
    simp
  have h0 : 0 ∉ sizes := by
    rw [hsz, List.mem_ofFn]
    rintro ⟨i, hi⟩
    have := hpos i
    omega
  have hop : Tnsim.opTensor sizes (⟨sizes, "CUo" ++ toString (d q), .single, .one ((q : Nat) : Int), none, false, false⟩ : Gate) (mem a) =
      .ok (Tnsim.transposed (mem a), [(q : Nat)]) := by
    have hm : Gate.toMatrix (⟨sizes, "CUo" ++ toString (d q), .single, .one ((q : Nat) : Int), none, false, false⟩ : Gate) (mem a) 1 = .ok (mem a) := by
      unfold Gate.toMatrix
      simp only [Gate.referenceLines, Gate.controlLines, Target.lines, bind, Except.bind, pure, Except.pure, applyIdentitiesAndControls]
      simp
      rw [if_neg (by have := q.2; rw [hlen]; omega)]
    unfold Tnsim.opTensor
    rw [hm]
    rfl
  unfold simulate arrays arrays
  simp only [bind, Except.bind, pure, Except.pure]
  unfold Tnsim.execute Tnsim.start
  rw [if_neg h0]
  simp only [bind, Except.bind, pure, Except.pure, List.foldlM_cons, List.foldlM_nil]
  rw [hop]
  dsimp only
  unfold Tnsim.applyGate
  rw [if_neg (by simp [Tnsim.transposed])]
  simp only [bind, Except.bind, pure, Except.pure, List.mapIdx_cons, List.mapIdx_nil, List.foldlM_cons, List.foldlM_nil]
  unfold Tnsim.connect
  have hleg : (List.range sizes.length)[(q : Nat)]? = some (q : Nat) := by
    rw [List.getElem?_range]
    rw [hlen]
    exact q.2
  dsimp only [Tnsim.transposed]
  rw [hleg]
  simp only [List.getElem?_cons_zero, List.length_cons, List.length_nil, Nat.zero_add, List.drop_succ_cons, List.drop_zero]
  have hgd : ∀ i : Fin n, (sizes ++ [(mem a).rows]).getD i 0 = d i := by
    intro i
    rw [List.getD_eq_getElem?_getD, List.getElem?_append_left (by rw [hlen]; exact i.2), hsz, List.getElem?_ofFn]
    simp
  have hgl : (sizes ++ [(mem a).rows]).getD (sizes.length + 0) 0 = (mem a).rows := by
    rw [List.getD_eq_getElem?_getD, List.getElem?_append_right (by omega)]
    simp
  rw [hgd]
  by_cases hc : d q = (mem a).cols
  swap
  · rw [if_neg hc]
  rw [if_pos hc]
  dsimp only
  rw [if_neg (by simp), if_neg]
  have hshape : ((List.range sizes.length).set q (sizes.length + 0)).map (fun e => (sizes ++ [(mem a).rows]).getD e 0) =
      List.ofFn (Function.update d q (mem a).rows) := by
    apply List.ext_getElem
    · simp [hlen]
    · intro i h1 h2
      rw [List.getElem_map, List.getElem_set, List.getElem_ofFn]
      by_cases hi : (q : Nat) = i
      · rw [if_pos hi, hgl, show (⟨i, by simpa using h2⟩ : Fin n) = q from Fin.ext hi.symm, Function.update_self]
      · rw [if_neg hi, List.getElem_range]
        have := hgd ⟨i, by simpa using h2⟩
        rw [Function.update_of_ne (fun e => hi (by rw [← e]))]
        exact this
  rw [hshape, hsz, List.prod_ofFn, List.prod_ofFn, Finset.prod_update_of_mem (Finset.mem_univ q), ← Finset.erase_eq,
    ← Finset.mul_prod_erase Finset.univ d (Finset.mem_univ q)]
  intro he
  have hp : 0 < ∏ i ∈ Finset.univ.erase q, d i := Finset.prod_pos fun i _ => hpos i
  exact hA ⟨Nat.eq_of_mul_eq_mul_right hp he, hc.symm⟩

/-- C82 is violated by gates without array: None, or anything that is no array of numbers, is accepted. The gate then has the matrix None, and the simulator
fails on every circuit with such a gate. -/
theorem C82_none_violated (d : Fin n → Nat) (mem draws : Nat → Arr2 ℂ) (draw : Arr2 ℂ) (q : Fin n) (p : Given) (hp : ∀ a, p ≠ .array a true) :
    ∃ o, cuOne (List.ofFn d) q p none = .ok o ∧ o.toMatrix mem draw 0 = .ok .none ∧
      ∀ before after : List Obj, ∃ e, simulate mem draws (List.ofFn d) (before ++ o :: after) = .error e := by
  obtain ⟨hone, -⟩ := C82_accepts d
  obtain ⟨g, hg⟩ := hone q
  have hgp : cuOne (List.ofFn d) q p none = .ok ⟨g, .stored none⟩ := by
    rw [hg p]
    rcases p with _ | ⟨a, _ | _⟩ | _
    · rfl
    · rfl
    · exact absurd rfl (hp a)
    · rfl
  obtain ⟨_, _, _, e, -, e'⟩ := made_init (d := d) (ts := [q]) (.inl ⟨q, p, rfl, hgp⟩)
  obtain ⟨f1, f2, f3, f4, f5⟩ := gateInit_fields e
  refine ⟨_, hgp, ?_, ?_⟩
  · unfold Obj.toMatrix
    dsimp only at f4 f3 f2 ⊢
    rw [f4, f3, if_neg (by simp), if_pos ⟨rfl, rfl⟩]
    unfold Gate.referenceLines Gate.controlLines
    rw [f3, f2, e']
    rfl
  · intro before after
    have key : ∀ k, ∃ e, arrays mem draws k (before ++ ⟨g, .stored none⟩ :: after) = .error e := by
      induction before with
      | nil => exact fun k => ⟨_, rfl⟩
      | cons b before ih =>
        intro k
        obtain ⟨gb, sb⟩ := b
        rcases sb with (_ | ab) | _
        · exact ⟨_, rfl⟩
        · obtain ⟨e, he⟩ := ih k
          exact ⟨e, by rw [List.cons_append]; unfold arrays; simp only [bind, Except.bind, he]⟩
        · obtain ⟨e, he⟩ := ih (k + 1)
          exact ⟨e, by rw [List.cons_append]; unfold arrays; simp only [bind, Except.bind, he]⟩
    obtain ⟨e, he⟩ := key 0
    exact ⟨e, by unfold simulate; rw [he]; rfl⟩

/-- the matrix of a gate on one qubit -/
noncomputable def qubitOp (x : Obj × Arr2 ℂ) : Matrix (Fin 2) (Fin 2) ℂ := if x.1.gate.dagger then (x.2.toM 2)ᴴ else x.2.toM 2

/-- circuits of one qubit: the amplitudes -/
theorem one_qubit (mem draws : Nat → Arr2 ℂ) (os : List Obj) (As : List (Arr2 ℂ)) (hlen : As.length = os.length)
    (hA : ∀ i, i < os.length → arrayAt mem draws os i = As[i]?)
    (h : ∀ (i : Nat) o A, os[i]? = some o → As[i]? = some A → UsedBy (fun _ : Fin 1 => 2) o [0] ∧ A.rows = 2 ∧ A.cols = 2) :
    ∃ v, simulate mem draws [2] os = .ok v ∧ ∀ k : Fin 2, v[(k : Nat)]? =
      some (((os.zip As).map qubitOp).reverse.prod k (0 : Fin 2)) := by
  obtain ⟨v, h1, h2⟩ := C82_simulated (fun _ : Fin 1 => 2) (by norm_num) (by simp) mem draws os (os.map fun _ => [0]) As hlen (by simp) hA (by
    intro i o ts A e1 e2 e3
    obtain ⟨f1, f2, f3⟩ := h i o A e1 e3
    rw [List.getElem?_map, e1] at e2
    cases e2
    exact ⟨f1, by simp, by simp, by simpa [Fits] using ⟨f2, f3⟩⟩)
  refine ⟨v, h1, fun k => ?_⟩
  have hidx : idx (fun _ : Fin 1 => 2) (fun _ => k) = k := by
    unfold idx
    simp [index]
  rw [← hidx, h2.entry, Compiler.mulVec_zeroState (by simp)]
  congr 1
  have hop : ((os.zip ((os.map fun _ => [0]).zip As)).map fun x => arrayOp (fun _ : Fin 1 => 2) x.1 x.2.1 x.2.2) =
      ((os.zip As).map qubitOp).map fun M : Matrix (Fin 2) (Fin 2) ℂ => embed1 (X := LvOf fun _ : Fin 1 => 2) 0 M := by
    clear h1 h2 h hA
    induction os generalizing As with
    | nil => rfl
    | cons o os ih =>
      obtain _ | ⟨A, As⟩ := As
      · rfl
      simp only [List.map_cons, List.zip_cons_cons]
      rw [ih As (by simpa using hlen)]
      congr 1
      unfold arrayOp qubitOp
      split
      · rw [← embed_conjTranspose, DD.embed_single]
        exact embed1_conjTranspose (X := LvOf fun _ : Fin 1 => 2) 0 (A.toM 2)
      · rw [DD.embed_single]
        rfl
  have hprod : ∀ l : List (Matrix (Fin 2) (Fin 2) ℂ), (l.map fun M => embed1 (X := LvOf fun _ : Fin 1 => 2) 0 M).prod =
      embed1 (X := LvOf fun _ : Fin 1 => 2) 0 l.prod := by
    intro l
    induction l with
    | nil => exact (embed1_one (X := LvOf fun _ : Fin 1 => 2) 0).symm
    | cons M l ih =>
      rw [List.map_cons, List.prod_cons, ih, List.prod_cons, embed1_mul]
  rw [hop, ← List.map_reverse, hprod]
  unfold embed1
  rw [if_pos (fun i hi => absurd (Subsingleton.elim i 0) hi)]
  rfl

/-- C82 is violated by sharing: `to_matrix` returns the object that was passed to the method, so that whoever writes into the result, or into the array
that was passed, changes the gate. Here X is turned into the identity, and the circuit has another state. -/
theorem C82_shared_violated :
    ∃ (mem mem' : Nat → Arr2 ℂ) (o : Obj) (v w : List ℂ), cuOne [2] 0 (.array 7 true) none = .ok o ∧ (∀ a, a ≠ 7 → mem' a = mem a) ∧
      (∀ draw, o.toMatrix mem draw 0 = .ok (.object 7)) ∧ simulate mem mem [2] [o] = .ok v ∧ simulate mem' mem [2] [o] = .ok w ∧ v ≠ w := by
  obtain ⟨hone, -⟩ := C82_accepts (fun _ : Fin 1 => 2)
  obtain ⟨g, hg⟩ := hone 0
  have ho : cuOne [2] 0 (.array 7 true) none = .ok ⟨g, .stored (some 7)⟩ := hg (.array 7 true)
  have hm : MadeBy (fun _ : Fin 1 => 2) ⟨g, .stored (some 7)⟩ [0] := .inl ⟨0, _, rfl, ho⟩
  obtain ⟨_, _, _, e, -, e'⟩ := made_init hm
  obtain ⟨-, f2, f3, f4, -⟩ := gateInit_fields e
  dsimp only at f2 f3 f4
  set X : Arr2 ℂ := ⟨2, 2, fun r c => if r = c then 0 else 1⟩ with hX
  set I : Arr2 ℂ := ⟨2, 2, fun r c => if r = c then 1 else 0⟩ with hI
  have hrun : ∀ (mem : Nat → Arr2 ℂ), (mem 7).rows = 2 → (mem 7).cols = 2 → ∃ v, simulate mem (fun _ => X) [2] [⟨g, .stored (some 7)⟩] = .ok v ∧
      v[0]? = some ((mem 7).at' 0 0) := by
    intro mem hr hc
    obtain ⟨v, h1, h2⟩ := one_qubit mem (fun _ => X) [⟨g, .stored (some 7)⟩] [mem 7] rfl (by
      intro i hi
      match i, hi with
      | 0, _ => rfl) (by
      intro i o A e1 e2
      match i with
      | 0 =>
        cases e1; cases e2
        exact ⟨⟨_, 0, hm, rfl⟩, hr, hc⟩)
    refine ⟨v, h1, ?_⟩
    have := h2 0
    rw [show ((0 : Fin 2) : Nat) = 0 from rfl] at this
    rw [this]
    simp [qubitOp, f4, Arr2.toM]
  obtain ⟨v, h1, h2⟩ := hrun (fun _ => X) rfl rfl
  obtain ⟨w, h3, h4⟩ := hrun (Function.update (fun _ => X) 7 I) (by rw [Function.update_self]) (by rw [Function.update_self])
  refine ⟨fun _ => X, Function.update (fun _ => X) 7 I, ⟨g, .stored (some 7)⟩, v, w, ho, fun a ha => Function.update_of_ne ha _ _, ?_, h1, h3, ?_⟩
  · intro draw
    unfold Obj.toMatrix
    dsimp only
    rw [f4, f3, if_pos ⟨rfl, rfl, rfl⟩]
    unfold Gate.referenceLines Gate.controlLines
    rw [f3, f2, e']
    rfl
  · rintro rfl
    rw [h2, Function.update_self] at h4
    simp [hX, hI] at h4

/-- C82 is violated by random gates: the array is drawn anew at every call, so that a gate and its adjoint after it do not bring the state back for every
draw. -/
theorem C82_random_violated :
    ∃ (draws : Nat → Arr2 ℂ) (o : Obj) (v : List ℂ), (∀ k, UnitaryOn (fun _ : Fin 1 => 2) [0] (draws k)) ∧ randU [2] [0] = .ok o ∧
      simulate draws draws [2] [o, o.dag] = .ok v ∧ v[0]? = some 0 := by
  obtain ⟨-, -, -, hrand⟩ := C82_accepts (fun _ : Fin 1 => 2)
  obtain ⟨g, hg⟩ := hrand [0] (by simp)
  have ho : randU [2] [0] = .ok ⟨g, .drawn⟩ := hg
  have hm : MadeBy (fun _ : Fin 1 => 2) ⟨g, .drawn⟩ [0] := .inr (.inr (.inr ho))
  obtain ⟨_, _, _, e, -, e'⟩ := made_init hm
  obtain ⟨-, f2, f3, f4, -⟩ := gateInit_fields e
  dsimp only at f2 f3 f4
  set X : Arr2 ℂ := ⟨2, 2, fun r c => if r = c then 0 else 1⟩ with hX
  set I : Arr2 ℂ := ⟨2, 2, fun r c => if r = c then 1 else 0⟩ with hI
  set draws : Nat → Arr2 ℂ := fun k => if k = 0 then X else I with hd
  obtain ⟨v, h1, h2⟩ := one_qubit draws draws [⟨g, .drawn⟩, (⟨g, .drawn⟩ : Obj).dag] [X, I] rfl (by
      intro i hi
      match i, hi with
      | 0, _ => rfl
      | 1, _ => rfl) (by
      intro i o A e1 e2
      match i with
      | 0 =>
        cases e1; cases e2
        exact ⟨⟨_, 0, hm, rfl⟩, rfl, rfl⟩
      | 1 =>
        cases e1; cases e2
        exact ⟨⟨_, 1, hm, rfl⟩, rfl, rfl⟩)
  refine ⟨draws, ⟨g, .drawn⟩, v, ?_, ho, h1, ?_⟩
  · intro k
    unfold UnitaryOn
    have hcard : (∏ i ∈ ([0] : List (Fin 1)).toFinset, (fun _ : Fin 1 => 2) i) = 2 := by simp
    rw [hcard]
    rw [mem_unitaryGroup_iff]
    by_cases hk : k = 0
    · ext i j
      fin_cases i <;> fin_cases j <;> simp [hd, hk, hX, Arr2.toM, Matrix.mul_apply, Fin.sum_univ_two]
    · ext i j
      fin_cases i <;> fin_cases j <;> simp [hd, hk, hI, Arr2.toM, Matrix.mul_apply, Fin.sum_univ_two]
  · have := h2 0
    rw [show ((0 : Fin 2) : Nat) = 0 from rfl] at this
    rw [this]
    simp [qubitOp, f4, Obj.dag, Gate.dag, Arr2.toM, hX, hI, Matrix.mul_apply, Fin.sum_univ_two]

/-- C82 is violated by arrays that are not unitary: they are accepted and applied, and the amplitudes are no longer those of a state. -/
theorem C82_not_unitary_violated :
    ∃ (mem : Nat → Arr2 ℂ) (o : Obj) (v : List ℂ), cuOne [2] 0 (.array 0 true) none = .ok o ∧ simulate mem mem [2] [o] = .ok v ∧
      v[0]? = some 2 := by
  obtain ⟨hone, -⟩ := C82_accepts (fun _ : Fin 1 => 2)
  obtain ⟨g, hg⟩ := hone 0
  have ho : cuOne [2] 0 (.array 0 true) none = .ok ⟨g, .stored (some 0)⟩ := hg (.array 0 true)
  have hm : MadeBy (fun _ : Fin 1 => 2) ⟨g, .stored (some 0)⟩ [0] := .inl ⟨0, _, rfl, ho⟩
  obtain ⟨_, _, _, e, -, e'⟩ := made_init hm
  obtain ⟨-, f2, f3, f4, -⟩ := gateInit_fields e
  dsimp only at f2 f3 f4
  obtain ⟨v, h1, h2⟩ := one_qubit (fun _ => ⟨2, 2, fun r c => if r = c then 2 else 0⟩) (fun _ => ⟨2, 2, fun r c => if r = c then 2 else 0⟩)
    [⟨g, .stored (some 0)⟩] [⟨2, 2, fun r c => if r = c then 2 else 0⟩] rfl (by
      intro i hi
      match i, hi with
      | 0, _ => rfl) (by
      intro i o A e1 e2
      match i with
      | 0 =>
        cases e1; cases e2
        exact ⟨⟨_, 0, hm, rfl⟩, rfl, rfl⟩)
  refine ⟨_, _, v, ho, h1, ?_⟩
  have := h2 0
  rw [show ((0 : Fin 2) : Nat) = 0 from rfl] at this
  rw [this]
  simp [qubitOp, f4, Arr2.toM]

/-- a random gate on lines 2 and 0 of a register of dimensions 2, 3, 2: unitary draws are applied exactly -/
example (draws : Nat → Arr2 ℂ) (h : Fits ![2, 3, 2] [2, 0] (draws 0)) :
    ∃ o v, randU [2, 3, 2] [2, 0] = .ok o ∧ simulate draws draws [2, 3, 2] [o] = .ok v ∧
      Lists ![2, 3, 2] v (arrayOp ![2, 3, 2] o [2, 0] (draws 0) *ᵥ zeroState ![2, 3, 2]) := by
  obtain ⟨-, -, -, hrand⟩ := C82_accepts ![2, 3, 2]
  obtain ⟨g, hg⟩ := hrand [2, 0] (by simp)
  obtain ⟨v, h1, h2⟩ := C82_simulated ![2, 3, 2] (by norm_num) (by decide) draws draws [⟨g, .drawn⟩] [[2, 0]] [draws 0] rfl rfl (by
    intro i hi
    match i, hi with
    | 0, _ => rfl) (by
    intro i o ts A e1 e2 e3
    match i with
    | 0 =>
      cases e1; cases e2; cases e3
      exact ⟨⟨_, 0, .inr (.inr (.inr hg)), rfl⟩, by simp, by decide, h⟩)
  exact ⟨_, v, hg, h1, by simpa using h2⟩

/-- C82 with controls (for lines as in C13, where line 0 takes part, and levels that `control` accepts, see C03): the gate made by `cu_one` acts as the array on its line if
all control lines have their levels, and as identity otherwise; it is simulated so in a circuit. Missing: the other lines and levels, where C03 and C13 fail. -/
theorem C82_controlled_partial (d : Fin (n + 1) → Nat) (hpos : ∀ i, 0 < d i) (mem draws : Nat → Arr2 ℂ) (t : Fin (n + 1)) (cs : List (Fin (n + 1))) (lev : Reg d) (a : Nat)
    (hne : cs ≠ []) (hnd : cs.Nodup) (htc : t ∉ cs) (h0 : 0 ∈ cs ++ [t])
    (hlev : ∀ (k : Fin (n + 1)) c, cs[(k : Nat)]? = some c → (lev c : Nat) < d k)
    (hr : (mem a).rows = d t) (hc : (mem a).cols = d t) :
    ∃ o, cuOne (List.ofFn d) t (.array a true) (some ⟨cs.map fun c : Fin (n + 1) => ((c : Nat) : Int), cs.map fun c : Fin (n + 1) => ((lev c : Nat) : Int)⟩) = .ok o ∧
      ∀ b : Bool, ∃ B, (if b then o.dag else o).toMatrix mem (draws 0) 2 = .ok (.fresh B) ∧ B.rows = ∏ i, d i ∧ B.cols = ∏ i, d i ∧
        (∀ x y, B.at' (idx d x) (idx d y) = controlled cs.toFinset lev (embed1 t (fun i j : Fin (d t) => (if b then (mem a).conjT else mem a).at' i j)) x y) ∧
        ∃ v, simulate mem draws (List.ofFn d) [if b then o.dag else o] = .ok v ∧
          Lists d v (controlled cs.toFinset lev (embed1 t (fun i j : Fin (d t) => (if b then (mem a).conjT else mem a).at' i j)) *ᵥ zeroState d) := by
  set idxs := cs.map fun c : Fin (n + 1) => ((c : Nat) : Int) with hidx
  set levs := cs.map fun c : Fin (n + 1) => ((lev c : Nat) : Int) with hlevs
  have hi : idxs ≠ [] := by simpa [hidx] using hne
  have hl : levs ≠ [] := by simpa [hlevs] using hne
  have hlen : cs.length ≤ n + 1 := by simpa using hnd.length_le_card
  set g₀ : Gate := ⟨List.ofFn d, "CUo" ++ toString (d t), .single, .one ((t : Nat) : Int), none, false, false⟩ with hg₀
  obtain ⟨g₁, hg₁⟩ := (C03_control_exact_partial g₀ idxs levs).2 (.inr (.inr ⟨rfl, by simpa [g₀, hidx] using hlen, by
      intro i hi
      obtain ⟨c, hc, rfl⟩ := List.mem_map.1 hi
      have : t ≠ c := fun e => htc (e ▸ hc)
      have h3 : (c : Nat) ≠ t := fun e => this (Fin.ext e.symm)
      have := c.2
      refine ⟨by simp [g₀]; omega, by simp [g₀, Target.lines]; omega⟩, by
      intro k l hk
      rw [hlevs, List.getElem?_map] at hk
      obtain ⟨c, hc, rfl⟩ := Option.map_eq_some_iff.1 hk
      have hk' : k < cs.length := (List.getElem?_eq_some_iff.1 hc).1
      refine ⟨d ⟨k, by omega⟩, ?_, ?_⟩
      · rw [hg₀]
        rw [List.getElem?_ofFn, dif_pos (by omega)]
      · have := hlev ⟨k, by omega⟩ c hc
        exact_mod_cast this⟩))
  have hok := (control_ok_iff g₀ g₁ idxs levs hi hl).1 hg₁
  obtain ⟨lr, hlr⟩ : ∃ lr, g₁.checkLongRange = .ok lr := by
    unfold Gate.checkLongRange Gate.referenceLines
    rw [if_neg (by
      rw [hok.2]
      simp [Gate.controlResult, Target.lines, g₀])]
    simp only [bind, Except.bind]
    split_ifs <;> exact ⟨_, rfl⟩
  have hinit : Gate.init (List.ofFn d) ("CUo" ++ toString (d t)) .single (.one ((t : Nat) : Int)) (some ⟨idxs, levs⟩) = .ok { g₁ with longRange := lr } := by
    unfold Gate.init
    simp only [bind, Except.bind, pure, Except.pure]
    rw [show Gate.control _ idxs levs = _ from hg₁]
    simp only
    rw [hlr]
  have hdimAt : dimensionAt (List.ofFn d) t = .ok (d t) := by
    unfold dimensionAt
    rw [List.getElem?_ofFn, dif_pos t.2]
  have hf : g₁.dims = List.ofFn d ∧ g₁.target = .one ((t : Nat) : Int) ∧ g₁.controls = some ⟨idxs, levs⟩ ∧ g₁.dagger = false := by
    rw [hok.2]
    simp [Gate.controlResult, g₀]
  obtain ⟨f1, f2, f3, f4⟩ := hf
  refine ⟨⟨{ g₁ with longRange := lr }, .stored (some a)⟩, ?_, ?_⟩
  · unfold cuOne Custom.init
    rw [hdimAt]
    simp only [bind, Except.bind]
    rw [hinit]
    rfl
  have hlines : ∀ g : Gate, g.controls = some ⟨idxs, levs⟩ → g.target = .one ((t : Nat) : Int) →
      g.controlLines ++ g.target.lines = (cs ++ [t]).map fun i : Fin (n + 1) => ((i : Nat) : Int) := by
    intro g h1 h2
    unfold Gate.controlLines
    rw [h1, h2]
    simp [Target.lines, hidx]
  have hnd' : (cs ++ [t]).Nodup := by
    rw [List.nodup_append]
    exact ⟨hnd, by simp, fun x hx y hy e => htc (by simp at hy; rw [← hy, ← e]; exact hx)⟩
  have hinj : Function.Injective fun i : Fin (n + 1) => ((i : Nat) : Int) := fun a b h => Fin.ext (by simpa using h)
  have hgate := C04_constructed_partial (List.ofFn d) ("CUo" ++ toString (d t)) .single (.one ((t : Nat) : Int)) (some ⟨idxs, levs⟩) _ (by rfl) hinit (by
    rw [hlines { g₁ with longRange := lr } f3 f2]
    exact hnd'.map hinj)
  have hfl : Flagged d { g₁ with longRange := lr } (cs ++ [t]) := by
    refine ⟨f1, hlines _ f3 f2, hnd', by simp, .inl ?_, hgate.2⟩
    rw [hgate.1, hlines { g₁ with longRange := lr } f3 f2, List.toFinset_card_of_nodup (hnd'.map hinj), List.length_map]
  intro b
  set o : Obj := if b then Obj.dag ⟨{ g₁ with longRange := lr }, .stored (some a)⟩ else ⟨{ g₁ with longRange := lr }, .stored (some a)⟩ with ho
  have o1 : o.source = .stored (some a) := by cases b <;> rfl
  have o2 : o.gate.dims = List.ofFn d := by cases b <;> exact f1
  have o3 : o.gate.target = .one ((t : Nat) : Int) := by cases b <;> exact f2
  have o4 : o.gate.controls = some ⟨idxs, levs⟩ := by cases b <;> exact f3
  have o5 : o.gate.dagger = b := by
    cases b
    · exact f4
    · rfl
  have o6 : Flagged d o.gate (cs ++ [t]) := by
    refine ⟨o2, hlines _ o4 o3, hnd', by simp, ?_, ?_⟩
    · cases b <;> exact hfl.type
    · cases b <;> exact hfl.long
  obtain ⟨B, hB, hB1, hB2, hB3⟩ := C13_controlled_line0_partial d o.gate t cs lev (mem a) o2 o3 o4 hne htc h0 hr hc
  rw [o5] at hB3
  refine ⟨B, ?_, hB1, hB2, hB3, ?_⟩
  · unfold Obj.toMatrix
    rw [o1]
    dsimp only
    rw [if_neg (by rw [o4]; simp), hB]
    rfl
  · unfold simulate arrays
    rw [o1]
    simp only [arrays, bind, Except.bind, pure, Except.pure]
    have := C15_execute d (Nat.succ_pos n) hpos [(o.gate, mem a)] _ (.cons ⟨⟨_, o6⟩, B, hB, hB1, hB2, hB3⟩ .nil)
    simpa using this
/-- Controls are for gates on one line: the other methods refuse them. -/
theorem C82_controls_refused (d : Fin n → Nat) (qs : List (Fin n)) (p : Given) (c : ControlData) (h1 : c.indices ≠ []) (h2 : c.ctrlStates ≠ []) :
    cuTwo (List.ofFn d) (qs.map Fin.val) p (some c) = .error .assertionError ∧ cuMulti (List.ofFn d) (qs.map Fin.val) p (some c) = .error .assertionError := by
  have hdims : ∃ ds, (qs.map Fin.val).mapM (dimensionAt (List.ofFn d)) = .ok ds := by
    induction qs with
    | nil => exact ⟨[], rfl⟩
    | cons q qs ih =>
      obtain ⟨ds, hds⟩ := ih
      refine ⟨d q :: ds, ?_⟩
      have : dimensionAt (List.ofFn d) q = .ok (d q) := by
        unfold dimensionAt
        rw [List.getElem?_ofFn, dif_pos q.2]
      rw [List.map_cons, List.mapM_cons, this, hds]
      rfl
  obtain ⟨ds, hds⟩ := hdims
  constructor
  · unfold cuTwo Custom.init Gate.init Gate.control
    rw [hds]
    simp [bind, Except.bind, h1, h2]
  · unfold cuMulti Custom.init Gate.init Gate.control
    rw [hds]
    simp [bind, Except.bind, h1, h2]

/-- a NOT of line 1, a qubit, if line 0, a qutrit, has level 2 -/
example : ∃ o, cuOne [3, 2] 1 (.array 5 true) (some ⟨[0], [2]⟩) = .ok o ∧ o.gate.controls = some ⟨[0], [2]⟩ := ⟨_, rfl, rfl⟩

end Qudits
