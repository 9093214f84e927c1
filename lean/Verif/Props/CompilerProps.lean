import Verif.Lemmas.CompilerRun
import Verif.Lemmas.NextLocal
import Verif.Props.ResynthProps
/-
C70-C72: the compiler.
-/
namespace Qudits
open Spec Matrix LGraph Compiler
open scoped Matrix.Norms.L2Operator

/-! ### C70: which pass is given which gate -/

theorem slots_step (s : Slots) (x : String) (hx : x ∈ lineNames ∨ x ∈ pairNames ∨ x ∈ zNames) :
    ∃ s', (match PyDict.get? passesEnabled x with
      | some c => Except.ok (s.put c)
      | none => .error PyErr.keyError) = .ok s' ∧
      s'.single = (if x ∈ lineNames then some (passNamed x) else s.single) ∧ s'.two = (if x ∈ pairNames then some (passNamed x) else s.two) ∧
      s'.multi = s.multi := by
  simp only [lineNames, pairNames, zNames, List.mem_cons, List.not_mem_nil, or_false] at hx
  rcases hx with (rfl | rfl | rfl | rfl | rfl | rfl) | (rfl | rfl) | rfl | rfl <;> exact ⟨_, rfl, rfl, rfl, rfl⟩

theorem slots_ok (names : List String) (hn : ∀ x ∈ names, x ∈ lineNames ∨ x ∈ pairNames ∨ x ∈ zNames) :
    ∃ s, slots names = .ok s ∧ ∀ t, s.get t = passFor names t := by
  have : ∀ (names : List String) (s : Slots), (∀ x ∈ names, x ∈ lineNames ∨ x ∈ pairNames ∨ x ∈ zNames) → ∃ s',
      names.foldlM (fun s n => match PyDict.get? passesEnabled n with
        | some c => Except.ok (s.put c)
        | none => .error PyErr.keyError) s = .ok s' ∧
      s'.single = (((names.filter fun s => decide (s ∈ lineNames)).getLast?).map passNamed).or s.single ∧
      s'.two = (((names.filter fun s => decide (s ∈ pairNames)).getLast?).map passNamed).or s.two ∧ s'.multi = s.multi := by
    intro names
    induction names with
    | nil => intro s _; exact ⟨s, rfl, rfl, rfl, rfl⟩
    | cons x names ih =>
      intro s hx
      obtain ⟨s1, h1, h2, h3, h4⟩ := slots_step s x (hx x (by simp))
      obtain ⟨s2, k1, k2, k3, k4⟩ := ih s1 fun y hy => hx y (List.mem_cons_of_mem _ hy)
      refine ⟨s2, ?_, ?_, ?_, k4.trans h4⟩
      · rw [List.foldlM_cons, h1]; exact k1
      · rw [k2, h2, List.filter_cons]
        by_cases hm : x ∈ lineNames
        · simp only [hm, decide_true, if_true, List.getLast?_cons]
          cases (names.filter fun s => decide (s ∈ lineNames)).getLast? <;> simp
        · simp [hm]
      · rw [k3, h3, List.filter_cons]
        by_cases hm : x ∈ pairNames
        · simp only [hm, decide_true, if_true, List.getLast?_cons]
          cases (names.filter fun s => decide (s ∈ pairNames)).getLast? <;> simp
        · simp [hm]
  obtain ⟨s, h1, h2, h3, h4⟩ := this names {} hn
  refine ⟨s, h1, fun t => ?_⟩
  cases t with
  | single => simp [Slots.get, passFor, h2]
  | two => simp [Slots.get, passFor, h3]
  | multi => simp [Slots.get, passFor, h4]

variable {run : PassClass → Graphs → Op (Arr2 ℂ) → Except PyErr (List CInstr × Graphs)} {other : Nat → Other}

theorem collect_pieces (f : Graphs → Op (Arr2 ℂ) → Except PyErr (List CInstr × Graphs)) (gs : List (Op (Arr2 ℂ))) (b b' : Graphs) (l : List CInstr)
    (h : collect f b gs = .ok (l, b')) : ∃ (p : Fin gs.length → List CInstr) (bs : Nat → Graphs), bs 0 = b ∧ bs gs.length = b' ∧
      (∀ k : Fin gs.length, f (bs k) (gs.get k) = .ok (p k, bs (k + 1))) ∧ l = (List.ofFn p).flatten := by
  induction gs generalizing b l with
  | nil => cases h; exact ⟨fun k => k.elim0, fun _ => b', rfl, rfl, fun k => k.elim0, rfl⟩
  | cons g gs ih =>
    unfold collect at h
    simp only [bind, Except.bind, pure, Except.pure] at h
    cases h1 : f b g with
    | error e => rw [h1] at h; cases h
    | ok v =>
      obtain ⟨l1, b1⟩ := v
      rw [h1] at h
      simp only at h
      cases h2 : collect f b1 gs with
      | error e => rw [h2] at h; cases h
      | ok w =>
        obtain ⟨l2, b2⟩ := w
        rw [h2] at h
        cases h
        obtain ⟨p, bs, k1, k2, k3, k4⟩ := ih _ _ h2
        refine ⟨Fin.cons l1 p, fun m => Nat.casesOn m b bs, rfl, k2, fun k => ?_, ?_⟩
        · refine Fin.cases ?_ (fun k => ?_) k
          · simpa [k1] using h1
          · simpa using k3 k
        · rw [List.ofFn_cons, List.flatten_cons, k4]

/-- `compile` with the names of passes, whatever the passes do: if a circuit comes out, it is made of one piece for each gate, in the order of the
gates. The piece of a gate is what the last pass named for gates of its type makes of it, on the backend as the piece before has left it; if none is
named, it is the gate itself. The mapping is that of the backend at the end. -/
theorem C70_dispatch (names : List String) (hn : ∀ x ∈ names, x ∈ lineNames ∨ x ∈ pairNames ∨ x ∈ zNames) (b : Graphs) (c : Circuit) (r : Compiled)
    (h : compileWith run other b c names = .ok r) :
    ∃ (p : Fin c.gates.length → List CInstr) (bs : Nat → Graphs), bs 0 = b ∧ r.graphs = bs c.gates.length ∧ r.gates = (List.ofFn p).flatten ∧
      mappings r.graphs c.dims = .ok r.mappings ∧
      ∀ k : Fin c.gates.length, match passFor names (typeOf other (c.gates.get k)) with
        | some a => run a (bs k) (c.gates.get k) = .ok (p k, bs (k + 1))
        | none => p k = [.kept (c.gates.get k)] ∧ bs (k + 1) = bs k := by
  obtain ⟨s, h1, h2⟩ := slots_ok names hn
  unfold compileWith at h
  simp only [bind, Except.bind] at h
  rw [h1] at h
  simp only at h
  cases h3 : collect (compileGate run other s) b c.gates with
  | error e => rw [h3] at h; cases h
  | ok v =>
    obtain ⟨l, b'⟩ := v
    rw [h3] at h
    unfold finish at h
    simp only [bind, Except.bind, pure, Except.pure] at h
    cases h4 : mappings b' c.dims with
    | error e => rw [h4] at h; cases h
    | ok m =>
      rw [h4] at h
      cases h
      obtain ⟨p, bs, k1, k2, k3, k4⟩ := collect_pieces _ _ _ _ _ h3
      refine ⟨p, bs, k1, k2.symm, k4, h4, fun k => ?_⟩
      have := k3 k
      unfold compileGate at this
      rw [h2] at this
      split
      · rename_i a ha; rw [ha] at this; exact this
      · rename_i ha
        rw [ha] at this
        have e := Except.ok.inj this
        exact ⟨(congrArg Prod.fst e).symm, (congrArg Prod.snd e).symm⟩

/-- `compile` itself raises nothing else: if the backend is in some good state `I` in which no pass that is used fails, which every pass
keeps, and in which every graph has its levels, a circuit comes out and the state is good again. -/
theorem C70_total (names : List String) (hn : ∀ x ∈ names, x ∈ lineNames ∨ x ∈ pairNames ∨ x ∈ zNames) (b : Graphs) (c : Circuit) (I : Graphs → Prop)
    (hb : I b) (hrun : ∀ g ∈ c.gates, ∀ a, passFor names (typeOf other g) = some a → ∀ b, I b → ∃ l b', run a b g = .ok (l, b') ∧ I b')
    (hmap : ∀ b, I b → ∃ m, mappings b c.dims = .ok m) : ∃ r, compileWith run other b c names = .ok r ∧ I r.graphs := by
  obtain ⟨s, h1, h2⟩ := slots_ok names hn
  have : ∀ (gs : List (Op (Arr2 ℂ))) (b : Graphs), I b → (∀ g ∈ gs, ∀ b, I b → ∃ l b', compileGate run other s b g = .ok (l, b') ∧ I b') →
      ∃ l b', collect (compileGate run other s) b gs = .ok (l, b') ∧ I b' := by
    intro gs
    induction gs with
    | nil => intro b hb _; exact ⟨_, _, rfl, hb⟩
    | cons g gs ih =>
      intro b hb hg
      obtain ⟨l, b1, k1, hb1⟩ := hg g (by simp) b hb
      obtain ⟨m, b2, k2, hb2⟩ := ih b1 hb1 fun x hx => hg x (List.mem_cons_of_mem _ hx)
      refine ⟨l ++ m, b2, ?_, hb2⟩
      unfold collect
      simp only [bind, Except.bind, pure, Except.pure]
      rw [k1]
      simp only
      rw [k2]
  obtain ⟨l, b', h3, hb'⟩ := this c.gates b hb fun g hg b hb => by
    unfold compileGate
    rw [h2]
    cases h : passFor names (typeOf other g) with
    | none => exact ⟨_, _, rfl, hb⟩
    | some a => exact hrun g hg a h b hb
  obtain ⟨m, hm⟩ := hmap b' hb'
  refine ⟨⟨l, m, b'⟩, ?_, hb'⟩
  unfold compileWith finish
  simp only [bind, Except.bind, pure, Except.pure]
  rw [h1]
  simp only
  rw [h3]
  simp only
  rw [hm]

/-- A name that is no pass raises KeyError, and nothing is compiled. -/
theorem C70_unknown (names : List String) (x : String) (hx : x ∈ names) (hx' : ¬ (x ∈ lineNames ∨ x ∈ pairNames ∨ x ∈ zNames)) (b : Graphs)
    (c : Circuit) : compileWith run other b c names = .error .keyError := by
  have hnone : PyDict.get? passesEnabled x = none := by
    simp only [lineNames, pairNames, zNames, List.mem_cons, List.not_mem_nil, or_false, not_or] at hx'
    obtain ⟨⟨h1, h2, h3, h4, h5, h6⟩, ⟨h7, h8⟩, h9, h10⟩ := hx'
    simp [PyDict.get?, passesEnabled, Ne.symm h1, Ne.symm h2, Ne.symm h3, Ne.symm h4, Ne.symm h5, Ne.symm h6, Ne.symm h7, Ne.symm h8, Ne.symm h9,
      Ne.symm h10]
  have : ∀ (names : List String) (s : Slots), x ∈ names → names.foldlM (fun s n => match PyDict.get? passesEnabled n with
        | some c => Except.ok (s.put c)
        | none => .error PyErr.keyError) s = .error .keyError := by
    intro names
    induction names with
    | nil => intro s h; cases h
    | cons y names ih =>
      intro s h
      rw [List.foldlM_cons]
      cases hy : PyDict.get? passesEnabled y with
      | none => rfl
      | some a =>
        refine ih _ ?_
        rcases List.mem_cons.1 h with rfl | h
        · rw [hnone] at hy; cases hy
        · exact h
  have e : slots names = .error .keyError := this names {} hx
  unfold compileWith
  rw [e]
  rfl

/-- The passes for virtual rotations can be named, but are given no gate: naming them changes nothing. -/
theorem C70_z_passes_violated (names : List String) (hn : ∀ x ∈ names, x ∈ lineNames ∨ x ∈ pairNames ∨ x ∈ zNames) (b : Graphs) (c : Circuit) :
    compileWith run other b c (names ++ ["ZPropagationOptPass", "ZRemovalOptPass"]) = compileWith run other b c names := by
  have : slots (names ++ ["ZPropagationOptPass", "ZRemovalOptPass"]) = slots names := by
    obtain ⟨s, h1, _⟩ := slots_ok names hn
    have h1' := h1
    unfold slots at h1' ⊢
    rw [List.foldlM_append, h1']
    rfl
  unfold compileWith
  rw [this]

/-- The pass that merges gates can be named, but its `transpile_gate` is not there: on every circuit with a gate on one line the compiler raises
NotImplementedError. -/
theorem C70_resynth_violated (fuel : Nat) (sp : PathFinder) (rnd : ℝ → ℝ) (b : Graphs) (c : Circuit) (g : Op (Arr2 ℂ)) (hg : g ∈ c.gates)
    (hs : g.single = true) : compile fuel sp rnd other b c ["NaiveLocResynthOptPass"] = .error .notImplemented := by
  have : ∀ gs : List (Op (Arr2 ℂ)), g ∈ gs →
      collect (compileGate (transpileGate fuel sp rnd other) other ⟨some .locResynth, none, none⟩) b gs = .error .notImplemented := by
    intro gs
    induction gs with
    | nil => intro h; cases h
    | cons x gs ih =>
      intro h
      unfold collect
      simp only [bind, Except.bind, pure, Except.pure]
      by_cases hx : x.single = true
      · have : compileGate (transpileGate fuel sp rnd other) other ⟨some .locResynth, none, none⟩ b x = .error .notImplemented := by
          simp [compileGate, typeOf, hx, Slots.get, transpileGate]
        rw [this]
      · have hk : compileGate (transpileGate fuel sp rnd other) other ⟨some .locResynth, none, none⟩ b x = .ok ([.kept x], b) := by
          unfold compileGate typeOf
          rw [if_neg hx]
          split_ifs <;> rfl
        rw [hk]
        simp only
        rw [ih ((List.mem_cons.1 h).resolve_left fun e => hx (e ▸ hs))]
  unfold compile compileWith
  have e : slots ["NaiveLocResynthOptPass"] = .ok ⟨some .locResynth, none, none⟩ := rfl
  rw [e]
  simp only [bind, Except.bind]
  rw [this _ hg]

/-! ### C71: is the next gate on the line a gate on one line? -/

section
variable {β : Type}

theorem new_ok (l : List (Op β)) (hid : (l.map Op.oid).Nodup) (hwf : ∀ x ∈ l, WellFormed x) :
    ∃ D v, Lanes.new l = .ok (D, v) ∧ (PyDict.keys v).Nodup ∧
      (∀ q, Resynth.Grouping ((Lanes.preProcess 0 l).filter fun t => Touches q t.2) ((PyDict.get? v q).getD [])) ∧
      ((Lanes.preProcess 0 l).map fun t => t.2.oid).Nodup := by
  obtain ⟨D, h1, _⟩ := Lanes.lanes_good l hid hwf
  have hops := Lanes.preProcess_ops 0 l
  obtain ⟨v, h2, h3, h4⟩ := Lanes.findConsecutive_ok (Lanes.preProcess 0 l) (fun t ht => hwf _ (by rw [← hops]; exact List.mem_map_of_mem ht))
  refine ⟨D, v, ?_, h3, h4, ?_⟩
  · unfold Lanes.new
    simp only [bind, Except.bind, pure, Except.pure]
    rw [h1]
    simp only
    rw [h2]
  · rw [show (fun t : LaneItem β => t.2.oid) = Op.oid ∘ Prod.snd from rfl, ← List.map_map, hops]
    exact hid

theorem lane_split (q : Int) (pre post : List (Op β)) (g : Op β) (hq : Touches q g) : lane q (pre ++ g :: post) = lane q pre ++ g :: lane q post := by
  unfold lane
  rw [List.filter_append, List.filter_cons_of_pos (by simpa using hq)]

/-- `next_is_local` of a gate on one line is true exactly if the gate that follows on its line is a gate on one line. -/
theorem C71_next_local (pre post : List (Op β)) (g : Op β) (hid : ((pre ++ g :: post).map Op.oid).Nodup) (hwf : ∀ x ∈ pre ++ g :: post, WellFormed x)
    (hs : g.single = true) (q : Int) (hq : g.target = .one q) :
    ∃ D v, Lanes.new (pre ++ g :: post) = .ok (D, v) ∧ Lanes.nextIsLocal v g.oid = .ok (((lane q post).head?.map Op.single).getD false) := by
  obtain ⟨D, v, h1, h2, h3, h4⟩ := new_ok _ hid hwf
  refine ⟨D, v, h1, ?_⟩
  have hops := Lanes.preProcess_ops 0 (pre ++ g :: post)
  obtain ⟨A, B', hAB, hA, hB'⟩ := List.map_eq_append_iff.1 hops
  obtain ⟨t, B, rfl, ht, hB⟩ := List.map_eq_cons_iff.1 hB'
  have htouch : ∀ q', Touches q' t.2 ↔ q' = q := by
    intro q'
    rw [ht]
    unfold Touches
    rw [hq]
    simp [Target.lines]
  obtain ⟨F1, X, Y, F2, k1, k2⟩ := Lanes.nextIsLocal_ok _ h4 h2 h3 (t := t) (by rw [hAB]; simp) htouch
  have hG := h3 q
  rw [k1] at hG
  have hY := Lanes.run_goes_on hG (by rw [ht]; exact hs) ((List.Nodup.of_map _ h4).filter _) (A := A.filter fun t => Touches q t.2)
    (B := B.filter fun t => Touches q t.2) (by
      rw [hAB, List.filter_append, List.filter_cons_of_pos (by simpa using (htouch q).2 rfl)])
  have hlane : lane q post = (B.filter fun t => Touches q t.2).map Prod.snd := by
    rw [← hB]
    unfold lane
    rw [List.filter_map]
    rfl
  rw [← ht, k2, hlane]
  congr 1
  cases hb : B.filter fun t => Touches q t.2 with
  | nil => rw [hb] at hY; simpa using hY
  | cons y ys =>
    rw [hb] at hY
    have hY' : Y ≠ [] ↔ y.2.single = true := by simpa using hY
    cases hy : y.2.single
    · rw [hy] at hY'
      simpa [hy] using hY'
    · rw [hy] at hY'
      simpa [hy] using hY'

/-- An object that is not in the circuit raises KeyError. -/
theorem C71_absent (l : List (Op β)) (hid : (l.map Op.oid).Nodup) (hwf : ∀ x ∈ l, WellFormed x) (k : Nat) (hk : ∀ x ∈ l, x.oid ≠ k) :
    ∃ D v, Lanes.new l = .ok (D, v) ∧ Lanes.nextIsLocal v k = .error .keyError := by
  obtain ⟨D, v, h1, h2, h3, _⟩ := new_ok l hid hwf
  refine ⟨D, v, h1, ?_⟩
  have hno : ∀ e ∈ Lanes.lookupEntries v, e.1 ≠ k := by
    intro e he
    unfold Lanes.lookupEntries at he
    obtain ⟨⟨q, gs⟩, hkv, he⟩ := List.mem_flatMap.1 he
    obtain ⟨⟨G, i⟩, hG, he⟩ := List.mem_flatMap.1 he
    obtain ⟨⟨t, j⟩, ht, rfl⟩ := List.mem_map.1 he
    have hG' : G ∈ gs := List.fst_mem_of_mem_zipIdx hG
    have ht' : t ∈ G := List.fst_mem_of_mem_zipIdx ht
    have : t ∈ (Lanes.preProcess 0 l).filter fun t => Touches q t.2 := by
      rw [← (h3 q).flat, Lanes.mem_of_key h2 hkv]
      exact List.mem_flatten.2 ⟨G, hG', ht'⟩
    refine hk _ ?_
    rw [← Lanes.preProcess_ops 0 l]
    exact List.mem_map_of_mem (List.mem_filter.1 this).1
  have : ∀ (es : List (Nat × Int × Nat × Nat)) (d : PyDict Nat (Int × Nat × Nat)), (∀ e ∈ es, e.1 ≠ k) → PyDict.get? d k = none →
      PyDict.get? (es.foldl (fun d e => PyDict.set d e.1 e.2) d) k = none := by
    intro es
    induction es with
    | nil => intro d _ h; exact h
    | cons e es ih =>
      intro d he h
      refine ih _ (fun e' he' => he e' (List.mem_cons_of_mem _ he')) ?_
      rw [PyDict.get?_set_ne _ _ _ _ (he e (by simp))]
      exact h
  unfold Lanes.nextIsLocal Lanes.fastLookup
  rw [this _ [] hno rfl]
end

/-! ### C72: the levels of optimisation -/

section
variable {n : Nat} {d : Fin n → Nat} {lp : ∀ i, Equiv.Perm (Fin (d i))} {sem : Op (Arr2 ℂ) → Matrix (Reg d) (Reg d) ℂ} {sp : PathFinder} {rnd : ℝ → ℝ}
  {rho : ℝ}

theorem Compiler.Translated.implements {b0 : Graphs} {e : ℝ} {A : Matrix (Reg d) (Reg d) ℂ} {l : List CInstr} (h : Translated d lp sem b0 e A l) :
    Implements d lp sem b0 e A l := ⟨h.native, h.unitary, h.near⟩

theorem translates_pair (hsp : FindsPaths sp) (hrnd : ∀ x, |rnd x - x| ≤ rho) (line : Nat → ℝ) {b0 : Graphs} {g : Op (Arr2 ℂ)}
    (hg : GoodCEx d lp other sem g ∨ GoodPair d lp other sem g) :
    Translates d lp sem b0 (fun _ b g => phyEnt sp rnd (other g.oid) b g) (gateError d line other rho) g := by
  intro b hb
  rcases hg with hg | hg
  · obtain ⟨l, h1, h2⟩ := phyEnt_cex (b0 := b0) (sp := sp) (rnd := rnd) hb.reads hg
    refine ⟨0, l, b, fun _ => Or.inl h1, hb, ?_⟩
    obtain ⟨_, _, i, j, a, c, k, phi, _, ht, _, hc, _⟩ := hg
    unfold gateError
    rw [ht, hc]
    exact h2
  · obtain ⟨l, b', h1, hb', h2⟩ := phyEnt_pair hsp hrnd hb hg
    refine ⟨0, l, b', fun _ => Or.inl h1, hb', ?_⟩
    obtain ⟨_, h3, i, j, _, _, _, _, _, ht, _, hc, _⟩ := hg
    unfold gateError
    rw [ht, hc, h3]
    exact h2

theorem translates_line (hsem : Semantics d sem) (hsp : FindsPaths sp) {b0 : Graphs} {g : Op (Arr2 ℂ)} (hg : OneLine d g) :
    Translates d lp sem b0 (fun _ b g => phyLocQR sp b g) (gateError d lineError other rho) g := by
  intro b hb
  obtain ⟨hs, i, ht, hu⟩ := hg
  obtain ⟨l, b', h1, hb', h2⟩ := phyLocQR_ok hsp hb ht hu (hsem.1 g i hs ht)
  refine ⟨0, l, b', fun _ => Or.inl h1, hb', ?_⟩
  unfold gateError
  rw [ht]
  simp only
  rw [lineOf_fin]
  exact h2

/-- `compile_O0` on circuits of gates on one line, controlled exchanges that keep the order of their levels, gates on two qubits and gates on more
lines that are kept as they are. Missing: other gates on two lines, for which it does not hold (C66, C67, and below). -/
theorem C72_O0_partial (hsem : Semantics d sem) (hsp : FindsPaths sp) (hrnd : ∀ x, |rnd x - x| ≤ rho) (fuel : Nat) {b : Graphs} (hb : Backend d lp b)
    (gs : List (Op (Arr2 ℂ)))
    (hg : ∀ g ∈ gs, OneLine d g ∨ GoodCEx d lp other sem g ∨ GoodPair d lp other sem g ∨ GoodMulti d lp other sem g) :
    ∃ l b', compileO0 fuel sp rnd other b ⟨List.ofFn d, gs⟩ = .ok ⟨l, List.ofFn fun i => placementList (lp i), b'⟩ ∧ Backend d lp b' ∧
      Implements d lp sem b (gs.map (gateError d lineError other rho)).sum (circuitOp sem gs) l := by
  have key : ∀ g ∈ gs, Translates d lp sem b (fun _ b g => compileGate (transpileGate fuel sp rnd other) other ⟨some .phyLocQR, some .phyEntQR, none⟩ b g)
      (gateError d lineError other rho) g := by
    intro g hgs b1 hb1
    rcases hg g hgs with h | h | h | h
    · obtain ⟨N, l, b', k⟩ := translates_line (other := other) (rho := rho) hsem hsp h b1 hb1
      refine ⟨N, l, b', fun f => ?_, k.2⟩
      simp only [compileGate, typeOf, h.1, if_true, Slots.get, transpileGate]
      exact k.1 f
    · obtain ⟨N, l, b', k⟩ := translates_pair hsp hrnd lineError (Or.inl h) b1 hb1
      refine ⟨N, l, b', fun f => ?_, k.2⟩
      simp only [compileGate, typeOf, h.1, h.2.1, if_true, Slots.get, transpileGate, Bool.false_eq_true, if_false]
      exact k.1 f
    · obtain ⟨N, l, b', k⟩ := translates_pair hsp hrnd lineError (Or.inr h) b1 hb1
      refine ⟨N, l, b', fun f => ?_, k.2⟩
      simp only [compileGate, typeOf, h.1, h.2.1, if_true, Slots.get, transpileGate, Bool.false_eq_true, if_false]
      exact k.1 f
    · obtain ⟨qs, hqs⟩ := h.2.2.1
      refine ⟨0, [.kept g], b1, fun _ => Or.inl ?_, hb1, ?_⟩
      · simp only [compileGate, typeOf, h.1, h.2.1, Slots.get, Bool.false_eq_true, if_false]
      · have := kept_multi (b0 := b) h (by rw [hqs]; exact hsem.2 g qs h.1 hqs)
        refine this.mono ?_
        unfold gateError
        rw [hqs, h.2.1]
        simp only
        cases (other g.oid).cex <;> simp
  obtain ⟨N, l, b', h1, h2, h3⟩ := collect_ok gs key b (AllKept.start hb)
  have h1 := (h1 N).resolve_right (by omega)
  refine ⟨l, b', ?_, h2.backend, h3.implements⟩
  have e : slots ["PhyLocQRPass", "PhyEntQRCEXPass"] = .ok ⟨some .phyLocQR, some .phyEntQR, none⟩ := rfl
  unfold compileO0 compile compileWith
  rw [e]
  simp only [bind, Except.bind]
  have h1' : collect (compileGate (transpileGate fuel sp rnd other) other ⟨some .phyLocQR, some .phyEntQR, none⟩) b gs = .ok (l, b') := h1
  rw [h1']
  simp only
  rw [finish_ok h2.backend]
  simp only
  exact finish_ok h2.backend l

theorem translates_O1 (hsem : Semantics d sem) (hsp : FindsPaths sp) (hrnd : ∀ x, |rnd x - x| ≤ rho) {b : Graphs} {g : Op (Arr2 ℂ)}
    (hg : OneLine d g ∨ GoodCEx d lp other sem g ∨ GoodPair d lp other sem g) :
    Translates d lp sem b (fun _ b g => gateO1 sp rnd other b g) (gateError d lineError other rho) g := by
  intro b1 hb1
  have hp : (GoodCEx d lp other sem g ∨ GoodPair d lp other sem g) → g.single = false := fun h => h.elim (·.1) (·.1)
  rcases hg with h | h
  · obtain ⟨N, l, b', k⟩ := translates_line (other := other) (rho := rho) hsem hsp h b1 hb1
    refine ⟨N, l, b', fun f => ?_, k.2⟩
    simp only [gateO1, h.1, if_true]
    exact k.1 f
  · obtain ⟨N, l, b', k⟩ := translates_pair hsp hrnd lineError h b1 hb1
    refine ⟨N, l, b', fun f => ?_, k.2⟩
    simp only [gateO1, hp h, Bool.false_eq_true, if_false]
    exact k.1 f

theorem merged_good (gs : List (Op (Arr2 ℂ))) (hid : (gs.map Op.oid).Nodup) (next : Nat) (hnext : ∀ g ∈ gs, g.oid < next)
    (hg : ∀ g ∈ gs, OneLine d g ∨ GoodCEx d lp other sem g ∨ GoodPair d lp other sem g) :
    ∃ gs', Resynth.transpile (List.ofFn d) next gs = .ok gs' ∧ (∀ q, (lane q gs').IsChain fun x y => ¬ (x.single = true ∧ y.single = true)) ∧
      (∀ sem, Semantics d sem → circuitOp sem gs' = circuitOp sem gs) ∧
      ∀ g ∈ gs', OneLine d g ∨ GoodCEx d lp other sem g ∨ GoodPair d lp other sem g := by
  have hover : ∀ g ∈ gs, GateOver d g := by
    intro g hgs
    have hpair : ∀ i j : Fin n, i ≠ j → g.single = false → g.target = .many [((i : Nat) : Int), ((j : Nat) : Int)] → GateOver d g := by
      intro i j hij hs ht
      refine ⟨Or.inr ⟨hs, _, by simp, ?_, ht⟩, ?_, ?_⟩
      · simp [Fin.ext_iff] at hij ⊢
        exact hij
      · intro q hq
        unfold Touches at hq
        rw [ht] at hq
        simp [Target.lines] at hq
        rcases hq with rfl | rfl
        · exact ⟨i, rfl⟩
        · exact ⟨j, rfl⟩
      · intro k hk; rw [ht] at hk; cases hk
    rcases hg g hgs with ⟨hs, i, ht, hu⟩ | ⟨hs, _, i, j, _, _, _, _, hij, ht, _⟩ | ⟨hs, _, i, j, hij, _, _, _, _, ht, _⟩
    · refine ⟨Or.inl ⟨hs, _, ht⟩, ?_, ?_⟩
      · intro q hq
        unfold Touches at hq
        rw [ht] at hq
        simp [Target.lines] at hq
        exact ⟨i, hq⟩
      · intro k hk
        rw [ht] at hk
        injection hk with hk
        have : i = k := Fin.ext (by omega)
        subst this
        exact ⟨hu.1, hu.2.1⟩
    · exact hpair i j hij hs ht
    · exact hpair i j hij.ne hs ht
  obtain ⟨gs', h1, h2, h3, h4, h5, h6⟩ := C33_resynth d gs hid hover next hnext
  have hu := h6 (fun i => unitaryGroup (Fin (d i)) ℂ) (by
    intro g hgs i hs ht
    rcases hg g hgs with ⟨_, k, hk, hu⟩ | h | h
    · rw [ht] at hk
      injection hk with hk
      have : i = k := Fin.ext (by omega)
      subst this
      exact hu.2.2
    · rw [h.1] at hs; cases hs
    · rw [h.1] at hs; cases hs)
  have hg' : ∀ g ∈ gs', OneLine d g ∨ GoodCEx d lp other sem g ∨ GoodPair d lp other sem g := by
    intro g hgs
    obtain ⟨q, hq⟩ := (h5 g hgs).touched
    by_cases hs : g.single = true
    · refine Or.inl ⟨hs, ?_⟩
      rcases (h5 g hgs).1 with ⟨_, q, ht⟩ | ⟨h, _⟩
      · obtain ⟨i, rfl⟩ := (h5 g hgs).2.1 q (by unfold Touches; rw [ht]; simp [Target.lines])
        have := (h5 g hgs).2.2 i ht
        exact ⟨i, ht, this.1, this.2, hu g hgs i hs ht⟩
      · rw [h] at hs; cases hs
    · have : g ∈ (lane q gs').filter fun g => !g.single := List.mem_filter.2 ⟨List.mem_filter.2 ⟨hgs, by simpa using hq⟩, by simp [hs]⟩
      rw [h4] at this
      have hm := (List.mem_filter.1 (List.mem_filter.1 this).1).1
      rcases hg g hm with h | h
      · exact absurd h.1 hs
      · exact Or.inr h
  exact ⟨gs', h1, h3, h2, hg'⟩

/-- `compile_O1` on circuits of gates on one line, controlled exchanges that keep the order of their levels, and gates on two qubits. The error is
that of the gates that are left after merging. Missing: gates on more lines, and others as for `compile_O0`. -/
theorem C72_O1_partial (hsem : Semantics d sem) (hsp : FindsPaths sp) (hrnd : ∀ x, |rnd x - x| ≤ rho) {b : Graphs} (hb : Backend d lp b)
    (gs : List (Op (Arr2 ℂ))) (hid : (gs.map Op.oid).Nodup) (next : Nat) (hnext : ∀ g ∈ gs, g.oid < next)
    (hg : ∀ g ∈ gs, OneLine d g ∨ GoodCEx d lp other sem g ∨ GoodPair d lp other sem g) :
    ∃ gs' l b', Resynth.transpile (List.ofFn d) next gs = .ok gs' ∧ (∀ q, (lane q gs').IsChain fun x y => ¬ (x.single = true ∧ y.single = true)) ∧
      compileO1 sp rnd other next b ⟨List.ofFn d, gs⟩ = .ok ⟨l, List.ofFn fun i => placementList (lp i), b'⟩ ∧ Backend d lp b' ∧
      Implements d lp sem b (gs'.map (gateError d lineError other rho)).sum (circuitOp sem gs) l := by
  obtain ⟨gs', h1, h3, h2, hg'⟩ := merged_good (lp := lp) (other := other) (sem := sem) gs hid next hnext hg
  obtain ⟨N, l, b', k1, k2, k3⟩ := collect_ok gs' (fun g h => translates_O1 (b := b) hsem hsp hrnd (hg' g h)) b (AllKept.start hb)
  have k1 : collect (gateO1 sp rnd other) b gs' = .ok (l, b') := (k1 N).resolve_right (by omega)
  refine ⟨gs', l, b', h1, h3, ?_, k2.backend, ?_⟩
  · unfold compileO1
    simp only [bind, Except.bind]
    rw [h1]
    simp only
    rw [k1]
    exact finish_ok k2.backend l
  · rw [← h2 sem hsem]
    exact k3.implements

/-- `compile_O2` on circuits as for `compile_O1`, in which no two gates on one line follow each other on a line (so that no phases are passed on), on
a backend all of whose levels are coupled: with enough stack the circuit that comes out is right, and with any stack it is this one or the search
fails for lack of it. Missing: circuits in which phases are passed on and backends not all of whose levels are coupled, for which it does not hold
(C69, and below). -/
theorem C72_O2_partial (hsem : Semantics d sem) (hsp : FindsShortest sp) (hrnd : ∀ x, |rnd x - x| ≤ rho) {b : Graphs} (hb : Backend d lp b)
    (hc : ∀ (i : Fin n) g, b[(i : Nat)]? = some (some g) → AllCoupled (d i) g) (hd : ∀ i, d i ≤ 10000)
    (gs : List (Op (Arr2 ℂ))) (hid : (gs.map Op.oid).Nodup)
    (hg : ∀ g ∈ gs, OneLine d g ∨ GoodCEx d lp other sem g ∨ GoodPair d lp other sem g)
    (hn : ∀ g ∈ gs, ∀ i : Fin n, g.target = .one (i : Nat) → NoTinyEntries (g.body.toM (d i)))
    (hl : ∀ q, (lane q gs).IsChain fun x y => ¬ (x.single = true ∧ y.single = true)) :
    ∃ N l b', (∀ fuel, compileO2 fuel sp rnd other b ⟨List.ofFn d, gs⟩ = .ok ⟨l, List.ofFn fun i => placementList (lp i), b'⟩ ∨
        (fuel < N ∧ compileO2 fuel sp rnd other b ⟨List.ofFn d, gs⟩ = .error .recursion)) ∧ Backend d lp b' ∧
      Implements d lp sem b (gs.map (gateError d adaError other rho)).sum (circuitOp sem gs) l := by
  have hwf : ∀ g ∈ gs, WellFormed g := by
    intro g hgs
    rcases hg g hgs with ⟨hs, i, ht, hu⟩ | ⟨hs, _, i, j, _, _, _, _, hij, ht, _⟩ | ⟨hs, _, i, j, hij, _, _, _, _, ht, _⟩
    · exact Or.inl ⟨hs, _, ht⟩
    · exact Or.inr ⟨hs, _, by simp, by simp [Fin.ext_iff] at hij ⊢; exact hij, ht⟩
    · have hij := hij.ne
      exact Or.inr ⟨hs, _, by simp, by simp [Fin.ext_iff] at hij ⊢; exact hij, ht⟩
  obtain ⟨D, v, h1, _⟩ := new_ok gs hid hwf
  have key : ∀ g ∈ gs, Translates d lp sem b (fun fuel b g => gateO2 fuel sp rnd other v b g) (gateError d adaError other rho) g := by
    intro g hgs b1 hb1
    rcases hg g hgs with ⟨hs, i, ht, hu⟩ | h
    · obtain ⟨pre, post, rfl⟩ := List.append_of_mem hgs
      obtain ⟨D', v', h1', h2'⟩ := C71_next_local pre post g hid hwf hs _ ht
      have e := Except.ok.inj (h1.symm.trans h1')
      obtain ⟨rfl, rfl⟩ := Prod.mk.inj e
      have hfalse : (((lane ((i : Nat) : Int) post).head?.map Op.single).getD false) = false := by
        have hch := hl (i : Nat)
        rw [lane_split _ _ _ _ (by unfold Touches; rw [ht]; simp [Target.lines])] at hch
        have h2 := (List.isChain_append.1 hch).2.1
        cases hb : lane ((i : Nat) : Int) post with
        | nil => rfl
        | cons y ys =>
          rw [hb] at h2
          have := (List.isChain_cons_cons.1 h2).1
          simp only [hs, true_and, Bool.not_eq_true] at this
          simpa using this
      rw [hfalse] at h2'
      obtain ⟨N, l, b', k1, k2, k3⟩ := phyLocAda_ok hsp hb1 ht hu (hsem.1 g i hs ht) (hc i) (hd i) (hn g hgs i ht)
      refine ⟨N, l, b', fun fuel => ?_, k2, ?_⟩
      · simp only [gateO2, hs, if_true, h2', bind, Except.bind]
        exact k1 fuel
      · unfold gateError
        rw [ht]
        simp only
        rw [lineOf_fin]
        exact k3
    · have hp : g.single = false := h.elim (·.1) (·.1)
      obtain ⟨N, l, b', k⟩ := translates_pair hsp.finds hrnd adaError h b1 hb1
      refine ⟨N, l, b', fun f => ?_, k.2⟩
      simp only [gateO2, hp, Bool.false_eq_true, if_false]
      exact k.1 f
  obtain ⟨N, l, b', k1, k2, k3⟩ := collect_ok gs key b (AllKept.start hb)
  refine ⟨N, l, b', fun fuel => ?_, k2.backend, k3.implements⟩
  unfold compileO2
  simp only [bind, Except.bind]
  rw [h1]
  simp only
  rcases k1 fuel with k | ⟨k, k'⟩
  · rw [k]
    exact Or.inl (finish_ok k2.backend l)
  · rw [k']
    exact Or.inr ⟨k, rfl⟩

end

end Qudits
