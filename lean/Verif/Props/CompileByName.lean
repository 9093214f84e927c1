import Verif.Model.CompileByName
import Verif.Spec.TrapSpec
import Verif.Props.EndToEnd
import Verif.Props.BackendProps

/-
Property C92: compiling for the shipped backends by name.
-/
namespace Qudits
open Spec Compiler LGraph

namespace Compiler

theorem RunsAs_mono {n : Nat} {d : Fin n → Nat} {obj : Nat → Gate × Arr2 ℂ} {gs : List (Op (Arr2 ℂ))} {e e' : ℝ}
    {res : Except PyErr Compiled} (h : RunsAs d obj gs e res) (he : e ≤ e') : RunsAs d obj gs e' res := by
  obtain ⟨c, v, r, w, h1, h2, h3, h4, h5, h6⟩ := h
  exact ⟨c, v, r, w, h1, h2, h3, h4, h5, fun k a z ha hz => (h6 k a z ha hz).trans he⟩

theorem trap_backend {n : Nat} {k : BackendClass} {N m : Nat} (hk : trapSize k = some (N, m)) (hn : n ≤ N) :
    ∃ b, graphsOf k = some b ∧ Backend (n := n) (fun _ => m) (fun _ => trapPlacement k m) b ∧ b.length = N := by
  cases k <;> simp only [trapSize, Option.some.injEq, Prod.mk.injEq, reduceCtorEq] at hk <;> obtain ⟨rfl, rfl⟩ := hk
  · refine ⟨_, rfl, fun i => ⟨innsbruck, ?_, C74_innsbruck⟩, rfl⟩
    have := i.isLt
    rw [innsbruck01, List.getElem?_replicate, if_pos (by omega)]
  · refine ⟨_, rfl, fun i => ⟨tritTrap, ?_, C74_trits⟩, rfl⟩
    have := i.isLt
    rw [tritTraps, List.getElem?_replicate, if_pos (by omega)]
  · refine ⟨_, rfl, fun i => ⟨sixTrap, ?_, C74_six⟩, rfl⟩
    have := i.isLt
    rw [sixTraps, List.getElem?_replicate, if_pos (by omega)]
  · refine ⟨_, rfl, fun i => ⟨sixTrap, ?_, C74_six⟩, rfl⟩
    have := i.isLt
    rw [sixTraps, List.getElem?_replicate, if_pos (by omega)]

theorem trap_readable {n : Nat} {k : BackendClass} {N m : Nat} (hk : trapSize k = some (N, m)) :
    Readable (n := n) (d := fun _ => m) fun _ => trapPlacement k m := by
  cases k <;> simp only [trapSize, Option.some.injEq, Prod.mk.injEq, reduceCtorEq] at hk <;> obtain ⟨rfl, rfl⟩ := hk
  · exact ⟨fun _ _ => rfl, fun _ _ _ => rfl⟩
  · exact ⟨fun _ l => Equiv.swap_apply_self 1 2 l, fun _ l h => by
      refine Equiv.swap_apply_of_ne_of_ne ?_ ?_ <;> · rintro rfl; simp at h⟩
  · exact ⟨fun _ _ => rfl, fun _ _ _ => rfl⟩
  · exact ⟨fun _ _ => rfl, fun _ _ _ => rfl⟩

theorem trap_levels {k : BackendClass} {N m : Nat} (hk : trapSize k = some (N, m)) : m = 3 ∨ m = 6 := by
  cases k <;> simp only [trapSize, Option.some.injEq, Prod.mk.injEq, reduceCtorEq] at hk <;> omega

theorem lineError_le {m : Nat} (hm : m = 3 ∨ m = 6) : lineError m ≤ 0.004 := by
  have s : ∀ x : ℝ, 0 ≤ x → x ≤ 25 → Real.sqrt (x * (1e-8 : ℝ) ^ 2) ≤ 5e-8 := by
    intro x h0 hx
    rw [Real.sqrt_le_left (by norm_num)]
    nlinarith
  rcases hm with rfl | rfl
  · have := s 3 (by norm_num) (by norm_num)
    unfold lineError qrError
    norm_num at this ⊢
    linarith
  · have := s 15 (by norm_num) (by norm_num)
    unfold lineError qrError
    norm_num at this ⊢
    linarith

theorem errors_le {n m : Nat} (hm : m = 3 ∨ m = 6) {lp : ∀ _ : Fin n, Equiv.Perm (Fin m)} {other : Nat → Other}
    {sem : Op (Arr2 ℂ) → Matrix (Reg (n := n) fun _ => m) (Reg (n := n) fun _ => m) ℂ} {rho : ℝ} (gs : List (Op (Arr2 ℂ)))
    (hg : ∀ g ∈ gs, OneLine (n := n) (fun _ => m) g ∨ GoodCEx (n := n) (fun _ => m) lp other sem g) :
    (gs.map (gateError (n := n) (fun _ => m) lineError other rho)).sum ≤ 0.004 * (gs.filter (·.single)).length := by
  induction gs with
  | nil => simp
  | cons g gs ih =>
    have ih := ih fun x hx => hg x (List.mem_cons_of_mem _ hx)
    rw [List.map_cons, List.sum_cons]
    rcases hg g List.mem_cons_self with ⟨h1, i, h2, _⟩ | ⟨h1, _, i, j, a, b, c, phi, _, h2, _, h3, _⟩
    · rw [List.filter_cons_of_pos (by simp [h1]), List.length_cons]
      have : gateError (n := n) (fun _ => m) lineError other rho g = lineError m := by
        unfold gateError
        rw [h2]
        simp only [lineOf_fin]
      rw [this]
      have := lineError_le hm
      push_cast
      linarith
    · rw [List.filter_cons_of_neg (by simp [h1])]
      have : gateError (n := n) (fun _ => m) lineError other rho g = 0 := by
        unfold gateError
        rw [h2]
        simp only [h3]
      rw [this, zero_add]
      exact ih

end Compiler

variable {n : Nat} {engine : RegexEngine} {name : Option (List Char)} {k : BackendClass} {N m : Nat} {sp : PathFinder} {rnd : ℝ → ℝ} {rho : ℝ}
  {other : Nat → Other} {obj : Nat → Gate × Arr2 ℂ} {gs : List (Op (Arr2 ℂ))}
  {sem : Op (Arr2 ℂ) → Matrix (Reg (n := n + 1) fun _ => m) (Reg (n := n + 1) fun _ => m) ℂ}

/-- C92: if the name selects one of the shipped traps, and the circuit has no more lines than the trap, with all levels of the trap, then
`compileO0(name)` of a circuit of unitary gates on one line and controlled exchanges returns a circuit for which the same is shown as for
the circuit itself, with an error of at most 0.004 for each gate on one line. -/
theorem C92_O0_partial (hk : getBackend engine name = .ok k) (hs : trapSize k = some (N, m)) (hn : n + 1 ≤ N)
    (hsem : Semantics (n := n + 1) (fun _ => m) sem) (hsp : FindsPaths sp) (hrnd : ∀ x, |rnd x - x| ≤ rho) (fuel : Nat)
    (hobj : Objects (n := n + 1) (fun _ => m) sem obj gs)
    (hg : ∀ g ∈ gs, OneLine (n := n + 1) (fun _ => m) g ∨ GoodCEx (n := n + 1) (fun _ => m) (fun _ => trapPlacement k m) other sem g) :
    RunsAs (n := n + 1) (fun _ => m) obj gs (0.004 * (gs.filter (·.single)).length)
      (compileO0Named engine name fuel sp rnd other ⟨List.replicate (n + 1) m, gs⟩) := by
  obtain ⟨b, hb, hB, _⟩ := trap_backend hs hn
  have hpos : ∀ _ : Fin (n + 1), 0 < m := fun _ => by rcases trap_levels hs with rfl | rfl <;> decide
  have := C75_O0_partial (rho := rho) hsem hsp hrnd fuel hB hpos (trap_readable hs) hobj fun g h => (hg g h).imp id Or.inl
  have e : compileO0Named engine name fuel sp rnd other ⟨List.replicate (n + 1) m, gs⟩ =
      compileO0 fuel sp rnd other b ⟨List.ofFn fun _ : Fin (n + 1) => m, gs⟩ := by
    unfold compileO0Named
    simp only [hk, hb, bind, Except.bind, List.ofFn_const]
  rw [e]
  exact RunsAs_mono this (errors_le (trap_levels hs) gs hg)

/-- C92 for `compileO1(name)`; the error is that of the gates which are left after merging, of which there are none next to each other. -/
theorem C92_O1_partial (hk : getBackend engine name = .ok k) (hs : trapSize k = some (N, m)) (hn : n + 1 ≤ N)
    (hsem : Semantics (n := n + 1) (fun _ => m) sem) (hsp : FindsPaths sp) (hrnd : ∀ x, |rnd x - x| ≤ rho)
    (hobj : Objects (n := n + 1) (fun _ => m) sem obj gs) (hid : (gs.map Op.oid).Nodup) (next : Nat) (hnext : ∀ g ∈ gs, g.oid < next)
    (hg : ∀ g ∈ gs, OneLine (n := n + 1) (fun _ => m) g ∨ GoodCEx (n := n + 1) (fun _ => m) (fun _ => trapPlacement k m) other sem g) :
    ∃ gs', Resynth.transpile (List.replicate (n + 1) m) next gs = .ok gs' ∧
      RunsAs (n := n + 1) (fun _ => m) obj gs (0.004 * (gs'.filter (·.single)).length)
        (compileO1Named engine name sp rnd other next ⟨List.replicate (n + 1) m, gs⟩) := by
  obtain ⟨b, hb, hB, _⟩ := trap_backend hs hn
  have hpos : ∀ _ : Fin (n + 1), 0 < m := fun _ => by rcases trap_levels hs with rfl | rfl <;> decide
  have hg3 : ∀ g ∈ gs, OneLine (n := n + 1) (fun _ => m) g ∨ GoodCEx (n := n + 1) (fun _ => m) (fun _ => trapPlacement k m) other sem g ∨
      GoodPair (n := n + 1) (fun _ => m) (fun _ => trapPlacement k m) other sem g := fun g h => (hg g h).imp id Or.inl
  obtain ⟨gs', h0, h1⟩ := C75_O1_partial (rho := rho) hsem hsp hrnd hB hpos (trap_readable hs) hobj hid next hnext hg3
  obtain ⟨gs'', k0, _, _, k1⟩ := merged_good (lp := fun _ => trapPlacement k m) (other := other) (sem := sem) gs hid next hnext hg3
  obtain rfl : gs' = gs'' := Except.ok.inj (h0.symm.trans k0)
  refine ⟨gs', by rw [← List.ofFn_const]; exact h0, ?_⟩
  have e : compileO1Named engine name sp rnd other next ⟨List.replicate (n + 1) m, gs⟩ =
      compileO1 sp rnd other next b ⟨List.ofFn fun _ : Fin (n + 1) => m, gs⟩ := by
    unfold compileO1Named
    simp only [hk, hb, bind, Except.bind, List.ofFn_const]
  rw [e]
  refine RunsAs_mono h1 (errors_le (trap_levels hs) gs' fun g h => (k1 g h).imp id fun x => x.resolve_right ?_)
  rintro ⟨_, _, i, j, _, h2, _⟩
  have h2 : m = 2 := h2
  rcases trap_levels hs with h | h <;> omega

/-- C92: the two simulators cannot be compiled for: every circuit whose gates on several lines have a list of targets is refused. -/
theorem C92_simulators (hk : getBackend engine name = .ok k) (hs : trapSize k = none) (fuel : Nat) (dims : List Nat)
    (hg : ∀ g ∈ gs, g.single = false → ∃ q qs, g.target = .many (q :: qs)) :
    compileO0Named engine name fuel sp rnd other ⟨dims, gs⟩ = .error .notImplemented := by
  have hb : graphsOf k = none := by cases k <;> simp_all [trapSize, graphsOf]
  unfold compileO0Named
  simp only [hk, hb, bind, Except.bind]
  have key : ∀ b, (∃ r, collect (compileGate withoutGraphs other ⟨some .phyLocQR, some .phyEntQR, none⟩) b gs = .ok r) ∨
      collect (compileGate withoutGraphs other ⟨some .phyLocQR, some .phyEntQR, none⟩) b gs = .error .notImplemented := by
    induction gs with
    | nil => exact fun b => .inl ⟨_, rfl⟩
    | cons g gs ih =>
      intro b
      have ih := ih fun x hx => hg x (List.mem_cons_of_mem _ hx)
      by_cases h1 : g.single = true
      · right
        simp [collect, compileGate, typeOf, Slots.get, h1, withoutGraphs, bind, Except.bind]
      · by_cases h2 : (other g.oid).two = true
        · right
          obtain ⟨q, qs, ht⟩ := hg g List.mem_cons_self (by simpa using h1)
          simp [collect, compileGate, typeOf, Slots.get, h1, h2, withoutGraphs, bind, Except.bind, ht]
        · rcases ih b with ⟨r, hr⟩ | hr
          · left
            exact ⟨(.kept g :: r.1, r.2), by simp [collect, compileGate, typeOf, Slots.get, h1, h2, bind, Except.bind, hr, pure, Except.pure]⟩
          · right
            simp [collect, compileGate, typeOf, Slots.get, h1, h2, bind, Except.bind, hr]
  have hslots : slots ["PhyLocQRPass", "PhyEntQRCEXPass"] = .ok ⟨some .phyLocQR, some .phyEntQR, none⟩ := rfl
  simp only [hslots]
  rcases key [] with ⟨r, hr⟩ | hr <;> simp only [hr]

/-- C92: the same for `compileO1`. -/
theorem C92_simulators_O1 (hk : getBackend engine name = .ok k) (hs : trapSize k = none) (next : Nat) (dims : List Nat) {l : List (Op (Arr2 ℂ))}
    (hl : Resynth.transpile dims next gs = .ok l) (hg : ∀ g ∈ l, g.single = false → ∃ q qs, g.target = .many (q :: qs)) :
    compileO1Named engine name sp rnd other next ⟨dims, gs⟩ = .error .notImplemented := by
  have hb : graphsOf k = none := by cases k <;> simp_all [trapSize, graphsOf]
  unfold compileO1Named
  simp only [hk, hb, bind, Except.bind, hl]
  cases l with
  | nil => rfl
  | cons g l =>
    by_cases h1 : g.single = true
    · simp [collect, h1, withoutGraphs, bind, Except.bind]
    · obtain ⟨q, qs, ht⟩ := hg g List.mem_cons_self (by simpa using h1)
      simp [collect, h1, withoutGraphs, bind, Except.bind, ht]

/-- C92, lines with fewer levels than the traps with six levels: AssertionError, or the same is shown. Here gates on two qubits may be of any
kind. -/
theorem C92_O0_smaller_partial {d : Fin (n + 1) → Nat} {sem : Op (Arr2 ℂ) → Matrix (Reg d) (Reg d) ℂ} (hk : getBackend engine name = .ok k)
    (hs : trapSize k = some (N, 6)) (hn : n + 1 ≤ N) (hd : ∀ i, 0 < d i ∧ d i ≤ 6) (hsem : Semantics d sem) (hsp : FindsPaths sp)
    (hrnd : ∀ x, |rnd x - x| ≤ rho) (fuel : Nat) (hobj : Objects d sem obj gs)
    (hg : ∀ g ∈ gs, OneLine d g ∨ GoodCEx d (fun _ => 1) other sem g ∨ GoodPair d (fun _ => 1) other sem g ∨ GoodMulti d (fun _ => 1) other sem g) :
    compileO0Named engine name fuel sp rnd other ⟨List.ofFn d, gs⟩ = .error .assertionError ∨
    RunsAs d obj gs (gs.map (gateError d (roomyError 6) other rho)).sum (compileO0Named engine name fuel sp rnd other ⟨List.ofFn d, gs⟩) := by
  obtain ⟨b, hb, hB⟩ : ∃ b, graphsOf k = some b ∧ RoomyBackend d (fun _ => 6) (fun _ => 1) b := by
    have key : RoomyBackend d (fun _ => 6) (fun _ => 1) (sixTraps N) := by
      intro i
      obtain ⟨g, h1, h2⟩ := six_roomy (n + 1) d (fun i => (hd i).2) i
      refine ⟨g, ?_, h2⟩
      have := i.isLt
      rw [sixTraps, List.getElem?_replicate, if_pos (by omega)] at h1
      rw [sixTraps, List.getElem?_replicate, if_pos (by omega)]
      exact h1
    cases k <;> simp only [trapSize, Option.some.injEq, Prod.mk.injEq, reduceCtorEq, Nat.reduceEqDiff, and_false, and_true] at hs <;> subst hs
    · exact ⟨_, rfl, key⟩
    · exact ⟨_, rfl, key⟩
  have := C75_O0_roomy_partial (M := 6) hsem hsp hrnd fuel hB (fun _ => le_rfl) (fun i => (hd i).1) ⟨fun _ _ => rfl, fun _ _ _ => rfl⟩ hobj hg
  have e : compileO0Named engine name fuel sp rnd other ⟨List.ofFn d, gs⟩ = compileO0 fuel sp rnd other b ⟨List.ofFn d, gs⟩ := by
    unfold compileO0Named
    simp only [hk, hb, bind, Except.bind]
  rw [e]
  exact this

/-- C92: a first gate on a line for which the trap has no ion is refused. -/
theorem C92_no_ion (hk : getBackend engine name = .ok k) (hs : trapSize k = some (N, m)) (fuel : Nat) (dims : List Nat) (g : Op (Arr2 ℂ))
    (h1 : g.single = true) (q : Int) (hq : (N : Int) ≤ q) (ht : g.target = .one q) :
    compileO0Named engine name fuel sp rnd other ⟨dims, g :: gs⟩ = .error .indexError := by
  obtain ⟨b, hb, _, hl⟩ := trap_backend (n := 0) hs (Nat.zero_le _)
  have hslots : slots ["PhyLocQRPass", "PhyEntQRCEXPass"] = .ok ⟨some .phyLocQR, some .phyEntQR, none⟩ := rfl
  have hnone : graphAt b q = .error .indexError := by
    unfold graphAt
    rw [if_neg (by omega), List.getElem?_eq_none (by omega)]
  unfold compileO0Named
  simp only [hk, hb, bind, Except.bind]
  unfold compileO0 compile compileWith
  simp [bind, Except.bind, hslots, collect, compileGate, typeOf, h1, Slots.get, transpileGate, phyLocQR, onLine, ht, hnone]

/-- C92: `edge_to_carrier` of Innsbruck01 gives carrier 0 for the transition between levels 0 and 1 and carrier 1 for that between levels
1 and 2, in both directions and for both ions; all other pairs of levels raise TypeError, other ions IndexError. -/
theorem C92_carrier (a b i : Int) :
    edgeToCarrier a b i =
      if i < -2 ∨ 1 < i then .error .indexError
      else if (a = 0 ∧ b = 1) ∨ (a = 1 ∧ b = 0) then .ok 0
      else if (a = 1 ∧ b = 2) ∨ (a = 2 ∧ b = 1) then .ok 1
      else .error .typeError := by
  have hi : pyItem innsbruck01 i = if i < -2 ∨ 1 < i then .error .indexError else .ok (some innsbruck) := by
    by_cases h : i < -2 ∨ 1 < i
    · rw [if_pos h]
      unfold pyItem
      have hl : (innsbruck01.length : Int) = 2 := rfl
      rw [hl]
      by_cases h0 : i < 0
      · simp only [h0, if_true]
        rw [if_pos (by omega)]
      · simp only [h0, if_false]
        rw [List.getElem?_eq_none (by have : innsbruck01.length = 2 := rfl; omega)]
    · have : i = -2 ∨ i = -1 ∨ i = 0 ∨ i = 1 := by omega
      rcases this with rfl | rfl | rfl | rfl <;> rfl
  have he : innsbruck.edges = [carrierEdge 0 1 3 0, carrierEdge 1 2 4 1] := rfl
  unfold edgeToCarrier
  rw [hi]
  by_cases h : i < -2 ∨ 1 < i
  · simp [h, bind, Except.bind]
  · simp only [h, if_false, bind, Except.bind, theGraph, edgeData, he, carrierEdge, List.find?, joins]
    have c1 : ((0 : Int) == a && (1 : Int) == b || (0 : Int) == b && (1 : Int) == a) = decide ((a = 0 ∧ b = 1) ∨ (a = 1 ∧ b = 0)) := by
      rw [Bool.eq_iff_iff]
      simp only [Bool.or_eq_true, Bool.and_eq_true, beq_iff_eq, decide_eq_true_eq]
      omega
    have c2 : ((1 : Int) == a && (2 : Int) == b || (1 : Int) == b && (2 : Int) == a) = decide ((a = 1 ∧ b = 2) ∨ (a = 2 ∧ b = 1)) := by
      rw [Bool.eq_iff_iff]
      simp only [Bool.or_eq_true, Bool.and_eq_true, beq_iff_eq, decide_eq_true_eq]
      omega
    rw [c1, c2]
    by_cases h1 : (a = 0 ∧ b = 1) ∨ (a = 1 ∧ b = 0)
    · rw [if_pos h1, decide_eq_true h1]
      rfl
    · rw [if_neg h1, decide_eq_false h1]
      by_cases h2 : (a = 1 ∧ b = 2) ∨ (a = 2 ∧ b = 1)
      · rw [if_pos h2, decide_eq_true h2]
        rfl
      · rw [if_neg h2, decide_eq_false h2]
        rfl

/-- names that select one of the shipped traps -/
example : getBackend (fun p => some fun key => p.isPrefixOf key) (some "faketraps3".toList) = .ok .fakeIonTraps3Six ∧
    trapSize .fakeIonTraps3Six = some (3, 6) := by decide

/-- the exchange of levels 0 and 2 of a qutrit, compiled for `faketraps2trits` -/
example : ∃ (sp : PathFinder) (g : Op (Arr2 ℂ)) (obj : Nat → Gate × Arr2 ℂ), FindsPaths sp ∧ g.body = exchangeArray (by decide) (2 : Fin 3) ∧
    RunsAs (n := 2) (fun _ => 3) obj [g] (0.004 * ([g].filter (·.single)).length)
      (compileO0Named (fun p => some fun key => p == key) (some "faketraps2trits".toList) 0 sp id (fun _ => ⟨false, [], none⟩) ⟨[3, 3], [g]⟩) := by
  obtain ⟨sp, hsp⟩ := findsPaths_exists
  obtain ⟨sem, hsem⟩ := semantics_exists (n := 2) fun _ => 3
  let g : Op (Arr2 ℂ) := ⟨0, true, .one 1, exchangeArray (by decide) (2 : Fin 3)⟩
  obtain ⟨G, _, hG1, hG2⟩ := made_one (n := 2) (d := fun _ => 3) 1 false g.body rfl rfl
  have hg : OneLine (n := 2) (fun _ => 3) g := ⟨rfl, 1, rfl, rfl, rfl, by rw [exchangeArray_toM]; exact relabelling_unitary _⟩
  have := C92_O0_partial (n := 1) (k := .fakeIonTraps2Trits) (N := 2) (m := 3) (engine := fun p => some fun key => p == key)
    (name := some "faketraps2trits".toList) (other := fun _ => ⟨false, [], none⟩) (rnd := id) (rho := 0)
    (obj := fun _ => (marked false G, g.body)) (gs := [g]) (by decide) rfl le_rfl hsem hsp (by simp) 0 (by
      intro x hx
      rw [List.mem_singleton.1 hx]
      refine ⟨hG1, ?_⟩
      rw [hsem.1 g 1 rfl rfl]
      exact hG2) (by
      intro x hx
      rw [List.mem_singleton.1 hx]
      exact Or.inl hg)
  exact ⟨sp, g, _, hsp, rfl, this⟩

end Qudits
