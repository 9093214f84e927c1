import Verif.Lemmas.Tnsim
import Verif.Lemmas.Gate
import Verif.Spec.SimSpec
import Verif.Props.EmbedProps
import Verif.Props.GateProps
/-
Property C15: the tensor-network simulator.
-/
namespace Qudits
open Spec Matrix

variable {n : Nat} {α : Type}

namespace Tnsim

theorem lsum_reg [AddCommMonoid α] (d : Fin n → Nat) (f : List Nat → α) :
    lsum (List.ofFn d) f = ∑ y : Reg d, f (List.ofFn fun i => (y i : Nat)) := by
  rw [lsum_eq]
  symm
  apply Finset.sum_of_injOn (fun y : Reg d => List.ofFn fun i => (y i : Nat))
  · intro a _ b _ h
    apply idx_injective d
    unfold idx
    exact congrArg _ h
  · intro y _
    simp only [Finset.mem_coe, List.mem_toFinset, itProduct_mem]
    exact levels_ofFn d y
  · intro a ha hn
    exfalso
    apply hn
    rw [List.mem_toFinset, itProduct_mem] at ha
    have hlt := index_lt ha
    rw [List.prod_ofFn] at hlt
    obtain ⟨x, hx⟩ := idx_surjective d _ hlt
    exact ⟨x, by simp, index_inj (levels_ofFn d x) ha hx⟩
  · intro y _; rfl

/-- a gate with right flags, as the lemmas about the simulator want it -/
theorem flags_of (d : Fin n → Nat) (g : Gate) (ls : List (Fin n)) (h : Flagged d g ls) :
    g.referenceLines = .ok ((ls.map Fin.val).map Int.ofNat) ∧ FlagsRight g ((ls.map Fin.val).map Int.ofNat) := by
  have hl : (ls.map Fin.val).map Int.ofNat = g.controlLines ++ g.target.lines := by
    rw [h.lines, List.map_map]; rfl
  have hlen : ls.length ≠ 0 := fun e => h.nonempty (List.length_eq_zero_iff.1 e)
  have href : g.referenceLines = .ok (g.controlLines ++ g.target.lines) := by
    unfold Gate.referenceLines
    dsimp only
    rw [if_neg (by rw [h.lines, List.length_map]; exact hlen)]
  refine ⟨by rw [hl]; exact href, ?_, ?_, ?_⟩
  · intro hs
    rcases h.type with ht | ht
    swap
    · rw [ht] at hs; cases hs
    rw [ht] at hs
    rw [List.length_map, List.length_map]
    generalize ls.length = k at hs hlen
    match k, hs, hlen with
    | 1, _, _ => rfl
    | 0, _, h0 => exact absurd rfl h0
    | k + 2, hs, _ => cases k <;> cases hs
  · intro hs
    rcases h.type with ht | ht
    swap
    · rw [ht] at hs; cases hs
    rw [ht] at hs
    rw [List.length_map, List.length_map]
    generalize ls.length = k at hs
    match k, hs with
    | 2, _ => rfl
  · obtain ⟨b, hb⟩ : ∃ b, g.checkLongRange = .ok b := by
      unfold Gate.checkLongRange
      rw [href]
      simp only [bind, Except.bind]
      split_ifs <;> exact ⟨_, rfl⟩
    have := checkLongRange_iff g b hb
    rw [hb]
    congr 1
    rw [Bool.eq_iff_iff, this, h.long]

end Tnsim

open Tnsim

/-- C15: for every register with at least one line and every list of gates whose type and long-range flag are right, the
simulator succeeds, and returns (line 0 most significant) the product of the full-register operators of the gates, the
first gate applied first, on the state with all lines at level 0. `ops` pairs every gate object with its raw array and
`Ms` lists the operators given by `to_matrix(identities=2)`. -/
theorem C15_execute [CommSemiring α] [Star α] (d : Fin n → Nat) (hn : 0 < n) (hpos : ∀ i, 0 < d i)
    (ops : List (Gate × Arr2 α)) (Ms : List (Matrix (Reg d) (Reg d) α))
    (h : List.Forall₂ (fun op M => (∃ ls, Flagged d op.1 ls) ∧ HasOperator d op.1 op.2 M) ops Ms) :
    ∃ v, execute (List.ofFn d) ops = .ok v ∧ Lists d v (Ms.reverse.prod *ᵥ zeroState d) := by
  set sizes := List.ofFn d with hsz
  have h0 : 0 ∉ sizes := by
    rw [hsz, List.mem_ofFn]
    rintro ⟨i, hi⟩
    have := hpos i
    omega
  have hne : sizes ≠ [] := by
    intro h
    have := congrArg List.length h
    simp [hsz] at this
    omega
  have hprod : sizes.prod = ∏ i, d i := List.prod_ofFn
  obtain ⟨net0, hstart, hinv0, hn0, hamp0⟩ := start_ok (α := α) sizes h0
  have key : ∀ (ops : List (Gate × Arr2 α)) (Ms : List (Matrix (Reg d) (Reg d) α)),
      List.Forall₂ (fun op M => (∃ ls, Flagged d op.1 ls) ∧ HasOperator d op.1 op.2 M) ops Ms →
      ∀ (net : Net α) (psi : Reg d → α), Inv sizes net → net.nodes ≠ [] →
      (∀ x : Reg d, amp net (List.ofFn fun i => (x i : Nat)) = psi x) →
      ∃ net', ops.foldlM (fun net op => do
          let tl ← opTensor sizes op.1 op.2
          applyGate net tl.1 tl.2) net = .ok net' ∧ net'.nodes ≠ [] ∧ Inv sizes net' ∧
        ∀ x : Reg d, amp net' (List.ofFn fun i => (x i : Nat)) = (Ms.reverse.prod *ᵥ psi) x := by
    intro ops Ms h
    induction h with
    | nil =>
      intro net psi hinv hnn hpsi
      exact ⟨net, rfl, hnn, hinv, fun x => by simp [hpsi]⟩
    | @cons op M ops Ms hop _ ih =>
      intro net psi hinv _ hpsi
      obtain ⟨⟨ls, hfl⟩, B, hB, hBr, hBc, hBe⟩ := hop
      obtain ⟨href, hf⟩ := flags_of d op.1 ls hfl
      obtain ⟨net1, hstep, hinv1, hne1, hamp1⟩ := step_ok sizes h0 op.1 hfl.dims op.2 B (ls.map Fin.val) href
        (hfl.nodup.map Fin.val_injective) (by
          intro i hi
          rw [List.mem_map] at hi
          obtain ⟨j, _, rfl⟩ := hi
          rw [hsz, List.length_ofFn]; exact j.2) hf hB (by rw [hBr, hprod]) (by rw [hBc, hprod]) net hinv
      obtain ⟨net', hrest, hne', hinv', hamp'⟩ := ih net1 (M *ᵥ psi) hinv1 hne1 (by
        intro x
        rw [hamp1 _ (levels_ofFn d x), hsz, lsum_reg]
        apply Finset.sum_congr rfl
        intro y _
        rw [hpsi]
        congr 1
        exact hBe x y)
      refine ⟨net', ?_, hne', hinv', ?_⟩
      · rw [List.foldlM_cons]
        rw [hstep]
        exact hrest
      · intro x
        rw [hamp', List.reverse_cons, List.prod_append, List.prod_singleton, ← mulVec_mulVec]
  obtain ⟨net, hfold, hnn, hinv, hamp⟩ := key ops Ms h net0 (zeroState d) hinv0 (hn0 hne) (by
    intro x
    rw [hamp0 _ (levels_ofFn d x)]
    unfold zeroState
    refine if_congr ?_ rfl rfl
    simp [List.mem_ofFn])
  refine ⟨(itProduct (siteLogics sizes)).map (amp net), ?_, ?_, ?_⟩
  · unfold execute
    rw [hstart]
    simp only [bind, Except.bind] at hfold ⊢
    rw [hfold]
    dsimp only
    rw [if_neg (fun e => hnn (List.length_eq_zero_iff.1 e)), hinv.dims, if_pos rfl]
    rfl
  · rw [List.length_map, itProduct_site_length, hprod]
  · intro x
    rw [List.getElem?_map]
    unfold idx
    rw [itProduct_getElem? (levels_ofFn d x)]
    rw [Option.map_some, hamp]

/-- An uncontrolled gate object as the constructor makes it has right flags and the operator of C12. -/
theorem constructed_flagged [Semiring α] [Star α] (d : Fin n → Nat) (name : String) (t : Target) (ts : List (Fin n))
    (arr : Arr2 α) (g : Gate) (hne : ts ≠ []) (hnd : ts.Nodup)
    (ht : t.lines = ts.map fun i : Fin n => ((i : Nat) : Int))
    (hg : Gate.init (List.ofFn d) name (typeFor ts.length) t none = .ok g)
    (hr : arr.rows = ∏ i ∈ ts.toFinset, d i) (hc : arr.cols = ∏ i ∈ ts.toFinset, d i) :
    Flagged d g ts ∧ HasOperator d g arr (embed ts.toFinset (onLines d ts.toFinset arr.at')) := by
  have hfields : g.dims = List.ofFn d ∧ g.target = t ∧ g.controls = none ∧ g.dagger = false := by
    unfold Gate.init at hg
    simp only [bind, Except.bind, pure, Except.pure] at hg
    split at hg
    · cases hg
    · injection hg with hg
      subst hg
      exact ⟨rfl, rfl, rfl, rfl⟩
  obtain ⟨h1, h2, h3, h4⟩ := hfields
  have hcl : g.controlLines = [] := by unfold Gate.controlLines; rw [h3]
  have hlines : g.controlLines ++ g.target.lines = ts.map fun i : Fin n => ((i : Nat) : Int) := by
    rw [hcl, h2, ht]; rfl
  have hndl : (g.controlLines ++ g.target.lines).Nodup := by
    rw [hlines]
    exact hnd.map (fun a b h => by
      have h' : ((a : Nat) : Int) = ((b : Nat) : Int) := h
      exact Fin.ext (by exact_mod_cast h'))
  obtain ⟨hty, hlong⟩ := C04_constructed_partial (List.ofFn d) name (typeFor ts.length) t none g
    (by rw [ht, List.length_map]) hg hndl
  refine ⟨⟨h1, hlines, hnd, hne, ?_, hlong⟩, ?_⟩
  · left
    rw [hty, List.toFinset_card_of_nodup hndl, hlines, List.length_map]
  · obtain ⟨B, hB, hBr, hBc, hBe⟩ := C12_full_register d g ts arr h1 (by rw [h2, ht]) h3 hnd hne hr hc
    rw [h4] at hBe
    exact ⟨B, hB, hBr, hBc, hBe⟩

/-- C15 for circuits of uncontrolled gates as the circuit methods build them: the result is the product of the raw arrays
acting on their lines (levels in ascending order of the lines). -/
theorem C15_uncontrolled [CommSemiring α] [Star α] (d : Fin n → Nat) (hn : 0 < n) (hpos : ∀ i, 0 < d i)
    (ops : List (Gate × Arr2 α)) (lines : List (List (Fin n)))
    (h : List.Forall₂ (fun op ts => ts ≠ [] ∧ ts.Nodup ∧
      (∃ name t, t.lines = ts.map (fun i : Fin n => ((i : Nat) : Int)) ∧
        Gate.init (List.ofFn d) name (typeFor ts.length) t none = .ok op.1) ∧
      op.2.rows = ∏ i ∈ ts.toFinset, d i ∧ op.2.cols = ∏ i ∈ ts.toFinset, d i) ops lines) :
    ∃ v, execute (List.ofFn d) ops = .ok v ∧
      Lists d v (((List.zipWith (fun (op : Gate × Arr2 α) ts => embed ts.toFinset (onLines d ts.toFinset op.2.at'))
        ops lines).reverse.prod) *ᵥ zeroState d) := by
  apply C15_execute d hn hpos
  induction h with
  | nil => exact List.Forall₂.nil
  | @cons op ts ops lines hop _ ih =>
    obtain ⟨hne, hnd, ⟨name, t, ht, hg⟩, hr, hc⟩ := hop
    obtain ⟨h1, h2⟩ := constructed_flagged d name t ts op.2 op.1 hne hnd ht hg hr hc
    exact List.Forall₂.cons ⟨⟨ts, h1⟩, h2⟩ ih

/-- C15: the simulator refuses a circuit without lines and a circuit with a line of dimension 0. -/
theorem C15_rejects [CommSemiring α] [Star α] :
    execute (α := α) [] [] = .error .valueError ∧
    ∀ sizes (ops : List (Gate × Arr2 α)), 0 ∈ sizes → execute sizes ops = .error .indexError := by
  constructor
  · rfl
  · intro sizes ops h
    unfold execute start
    rw [if_pos h]
    rfl

/-- C15 needs the flags: a gate on line 2 to which a control on line 0 was attached after its construction keeps the
long-range flag false (C04), and the simulator raises although the full-register operator of the gate exists. -/
theorem C15_stale_flag_violated :
    ∃ (g g' : Gate) (arr : Arr2 ℂ) (M : Matrix (Reg fun _ : Fin 3 => 2) (Reg fun _ : Fin 3 => 2) ℂ),
      Gate.init [2, 2, 2] "X" .single (.one 2) none = .ok g ∧ g.control [0] [1] = .ok g' ∧
      HasOperator (fun _ : Fin 3 => 2) g' arr M ∧
      execute [2, 2, 2] [(g', arr)] = .error .valueError := by
  obtain ⟨A, h1, h2, h3, h4⟩ := C13_controlled_line0_partial (α := ℂ) (n := 2) (fun _ => 2)
      ⟨[2, 2, 2], "X", .two, .one 2, some ⟨[0], [1]⟩, false, false⟩ 2 [0] (fun _ => 1)
      ⟨2, 2, fun r c => if r = c then 0 else 1⟩ rfl rfl rfl (by decide) (by decide) (by decide) rfl rfl
  exact ⟨⟨[2, 2, 2], "X", .single, .one 2, none, false, false⟩,
    ⟨[2, 2, 2], "X", .two, .one 2, some ⟨[0], [1]⟩, false, false⟩, ⟨2, 2, fun r c => if r = c then 0 else 1⟩, _,
    by rfl, by rfl, ⟨A, h1, h2, h3, h4⟩, by rfl⟩

/-- A two-line gate on lines 2 and 0 followed by a gate on line 1, in a register of dimensions 2, 3, 2. -/
example (u v : Arr2 ℂ) (hu : u.rows = 4 ∧ u.cols = 4) (hv : v.rows = 3 ∧ v.cols = 3) :
    ∃ g h w, Gate.init [2, 3, 2] "csum" .two (.many [2, 0]) none = .ok g ∧
      Gate.init [2, 3, 2] "h" .single (.one 1) none = .ok h ∧
      execute [2, 3, 2] [(g, u), (h, v)] = .ok w ∧ w.length = 12 := by
  obtain ⟨w, hw, hl⟩ := C15_uncontrolled (n := 3) ![2, 3, 2] (by omega) (by decide)
    [(⟨[2, 3, 2], "csum", .two, .many [2, 0], none, false, true⟩, u), (⟨[2, 3, 2], "h", .single, .one 1, none, false, false⟩, v)]
    [[2, 0], [1]] (by
      refine List.Forall₂.cons ⟨by decide, by decide, ⟨"csum", .many [2, 0], by decide, by rfl⟩, ?_, ?_⟩
        (List.Forall₂.cons ⟨by decide, by decide, ⟨"h", .one 1, by decide, by rfl⟩, ?_, ?_⟩ List.Forall₂.nil)
      · rw [hu.1]; decide
      · rw [hu.2]; decide
      · rw [hv.1]; decide
      · rw [hv.2]; decide)
  exact ⟨_, _, w, by rfl, by rfl, hw, by rw [hl.length]; decide⟩

end Qudits
