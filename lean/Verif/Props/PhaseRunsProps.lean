import Verif.Spec.PhaseRunSpec
import Verif.Props.PhaseRunProps
/-! # C30: the Z-propagation pass on circuits with any number of runs -/
namespace Qudits
open Spec Matrix Complex PhasePass

variable {n : Nat} {d : Fin n → Nat} {sem : PInstr → Matrix (Reg d) (Reg d) ℂ}

/-- the positions of the runs -/
def places : Nat → List (List PInstr) → List (List Nat)
  | _, [] => []
  | k, r :: rs => List.range' k r.length :: places (k + r.length) rs

theorem intervals_new {q t : List Int} (ht : t ≠ []) {run : List PInstr} (hr : run ≠ []) (hrun : ∀ g ∈ run, g.target.lines = q) (hq : q ≠ t) (k : Nat)
    (ivs : List (List Nat)) (cur : List Nat) :
    (enum k run).foldl intervalStep ⟨ivs, cur, t⟩ = ⟨ivs ++ [cur], List.range' k run.length, q⟩ := by
  obtain ⟨g, run, rfl⟩ := List.exists_cons_of_ne_nil hr
  have hg := hrun g (by simp)
  have : intervalStep ⟨ivs, cur, t⟩ (k, g) = ⟨ivs ++ [cur], [k], q⟩ := by
    unfold intervalStep
    dsimp only
    rw [if_neg, hg]
    rintro (h | h)
    · exact ht (List.length_eq_zero_iff.1 h)
    · exact hq (hg.symm.trans h)
  rw [enum, List.foldl_cons, this, intervals_run q run (fun g' hg' => hrun g' (List.mem_cons_of_mem _ hg')), List.length_cons, List.range'_succ]
  rfl

theorem intervals_runs : ∀ (runs : List (List PInstr)), Runs runs → ∀ (k : Nat) (ivs : List (List Nat)) (cur : List Nat) (t : List Int), t ≠ [] → 0 < cur.length →
    (∀ r, runs.head? = some r → ∀ g ∈ r, g.target.lines ≠ t) →
    ∃ st, (enum k runs.flatten).foldl intervalStep ⟨ivs, cur, t⟩ = st ∧ 0 < st.current.length ∧
      st.intervals ++ [st.current] = ivs ++ cur :: places k runs
  | [], _, k, ivs, cur, t, _, hc, _ => ⟨_, rfl, hc, rfl⟩
  | r :: rs, hR, k, ivs, cur, t, ht, hc, hf => by
    obtain ⟨hr, q, hq, hrun⟩ := hR.same r (by simp)
    obtain ⟨g, hg⟩ := List.exists_mem_of_ne_nil _ hr
    have hqt : q ≠ t := by
      rw [← hrun g hg]
      exact hf r rfl g hg
    rw [List.flatten_cons, enum_append, List.foldl_append, intervals_new ht hr hrun hqt]
    obtain ⟨st, e, h1, h2⟩ := intervals_runs rs ⟨fun r hr => hR.same r (by simp [hr]), (List.isChain_cons.1 hR.differ).2⟩ (k + r.length) (ivs ++ [cur])
      (List.range' k r.length) q hq (by rw [List.length_range']; exact List.length_pos_iff.2 hr) (by
        intro r' hr' g' hg'
        have := (List.isChain_cons.1 hR.differ).1 r' hr' g hg g' hg'
        rw [hrun g hg] at this
        exact this.symm)
    refine ⟨st, e, h1, ?_⟩
    rw [h2, places]
    simp

/-- the intervals found are the positions of the runs -/
theorem findIntervals_runs {runs : List (List PInstr)} (hR : Runs runs) : findIntervals runs.flatten = places 0 runs := by
  cases runs with
  | nil => rfl
  | cons r rs =>
    obtain ⟨hr, q, hq, hrun⟩ := hR.same r (by simp)
    obtain ⟨g, run, rfl⟩ := List.exists_cons_of_ne_nil hr
    have hg := hrun g (by simp)
    have e0 : (enum 0 (g :: run)).foldl intervalStep ⟨[], [], []⟩ = ⟨[], List.range' 0 (g :: run).length, q⟩ := by
      rw [enum, List.foldl_cons, intervalStep_first, hg, intervals_run q run (fun g' hg' => hrun g' (List.mem_cons_of_mem _ hg')), List.length_cons,
        List.range'_succ]
      rfl
    obtain ⟨st, e, h1, h2⟩ := intervals_runs rs ⟨fun r hr => hR.same r (by simp [hr]), (List.isChain_cons.1 hR.differ).2⟩ (0 + (g :: run).length) []
      (List.range' 0 (g :: run).length) q hq (by simp) (by
        intro r' hr' g' hg'
        have := (List.isChain_cons.1 hR.differ).1 r' hr' g (by simp) g' hg'
        rw [hg] at this
        exact this.symm)
    unfold findIntervals
    rw [List.flatten_cons, enum_append, List.foldl_append, e0, e]
    dsimp only
    rw [if_pos h1, h2]
    rfl

/-- one run, wherever the list ends -/
theorem removeZStep_clipped (l new : List PInstr) (back : Bool) (lo len : Nat) (hlen : 1 < len)
    (rots zs : List PInstr) (hp : propagateZ ((l.take (lo + len)).drop lo) back = .ok (rots, zs)) :
    removeZStep l back new (List.range' lo len) =
      .ok (new.take lo ++ new.drop (lo + len) ++ (if back then zs ++ rots else rots ++ zs)) := by
  have hhead : (List.range' lo len).headD 0 = lo := by
    rw [show len = len - 1 + 1 by omega, List.range'_succ]; rfl
  have hgl : (List.range' lo len).getLastD 0 = lo + len - 1 := by
    rw [List.getLastD_eq_getLast?, List.getLast?_range', if_neg (by omega)]
    simp
  unfold removeZStep
  dsimp only
  rw [if_pos (by simpa using hlen), hhead, hgl, show lo + len - 1 + 1 = lo + len by omega, hp]
  have e : sliceAssign new (lo : Int) (((lo + len - 1 : Nat) : Int) + 1) [] = new.take lo ++ new.drop (lo + len) := by
    unfold sliceAssign sliceBound
    dsimp only
    rw [if_neg (by omega), if_neg (by omega), List.append_nil]
    by_cases h1 : new.length ≤ lo
    · rw [show min ((lo : Int).toNat) new.length = new.length by omega, List.take_length, List.take_of_length_le h1,
        List.drop_eq_nil_of_le (by omega), List.drop_eq_nil_of_le (by omega)]
    · rw [show min ((lo : Int).toNat) new.length = lo by omega]
      congr 1
      by_cases h2 : lo + len ≤ new.length
      · rw [show max lo (min ((((lo + len - 1 : Nat) : Int) + 1).toNat) new.length) = lo + len by omega]
      · rw [List.drop_eq_nil_of_le (by omega), List.drop_eq_nil_of_le (by omega)]
  change Except.ok (sliceAssign new (lo : Int) (((lo + len - 1 : Nat) : Int) + 1) [] ++ _) = _
  rw [e]

theorem removeZ_runs (h : GateSemantics d sem) (back : Bool) (l : List PInstr) : ∀ (runs : List (List PInstr)) (pre : List PInstr),
    l = pre ++ runs.flatten → (∀ r ∈ runs, 2 ≤ r.length → ∃ i : Fin n, ∀ g ∈ r, PhaseGate (d i) (i : Nat) g) →
    ∃ news : List (List PInstr), news.length = runs.length ∧ (∀ p ∈ runs.zip news, circuitOp sem p.2 = circuitOp sem p.1 ∧
        (2 ≤ p.1.length → ∀ g ∈ p.1, p.2.length = (rotations p.1).length + g.dim)) ∧
      ∀ cur, (places pre.length runs).foldlM (removeZStep l back) cur = .ok (moved pre.length (runs.zip news) cur)
  | [], pre, _, _ => ⟨[], rfl, by simp, fun _ => rfl⟩
  | r :: rs, pre, hl, hp => by
    obtain ⟨news, h1, h2, h3⟩ := removeZ_runs h back l rs (pre ++ r) (by rw [hl]; simp) fun r hr => hp r (by simp [hr])
    rw [List.length_append] at h3
    by_cases h2r : 2 ≤ r.length
    · obtain ⟨i, hi⟩ := hp r (by simp) h2r
      have hr0 : r ≠ [] := by rintro rfl; simp at h2r
      obtain ⟨rots, zs, hpz, hop, hgates, hrl, hzl⟩ := C29_propagate (d i) (i : Nat) r hr0 hi back
      have hg : ∀ g ∈ (if back then zs ++ rots else rots ++ zs), PhaseGate (d i) (i : Nat) g := by
        intro g hg
        apply hgates
        cases back
        · exact hg
        · rw [if_pos rfl] at hg
          rw [List.mem_append] at hg ⊢
          exact hg.symm
      refine ⟨(if back then zs ++ rots else rots ++ zs) :: news, by simp [h1], ?_, fun cur => ?_⟩
      · intro p hp
        rw [List.zip_cons_cons, List.mem_cons] at hp
        rcases hp with rfl | hp
        · refine ⟨by rw [sem_run h i r hi, sem_run h i _ hg, hop], fun _ g hg => ?_⟩
          have e1 := hrl.length_eq
          have e2 := hzl.length_eq
          rw [List.length_range] at e2
          rw [(hi g hg).2.1, e1, e2]
          cases back
          · simp
          · simp [Nat.add_comm]
        · exact h2 p hp
      · have hseq : (l.take (pre.length + r.length)).drop pre.length = r := by
          rw [hl, List.flatten_cons, ← List.append_assoc, ← List.length_append, List.take_left, List.drop_left]
        rw [places, List.foldlM_cons, removeZStep_clipped l cur back _ _ (by omega) rots zs (by rw [hseq, hpz])]
        change List.foldlM _ _ _ = _
        rw [h3, List.zip_cons_cons, moved, if_pos h2r]
    · refine ⟨r :: news, by simp [h1], ?_, fun cur => ?_⟩
      · intro p hp
        rw [List.zip_cons_cons, List.mem_cons] at hp
        rcases hp with rfl | hp
        · exact ⟨rfl, fun h => absurd h h2r⟩
        · exact h2 p hp
      · have : removeZStep l back cur (List.range' pre.length r.length) = .ok cur := by
          unfold removeZStep
          rw [if_neg (by rw [List.length_range']; omega)]
        rw [places, List.foldlM_cons, this]
        change List.foldlM _ _ _ = _
        rw [h3, List.zip_cons_cons, moved, if_neg h2r]

/-- What the pass returns for every circuit: whatever the runs, each run of at least two rotations is replaced by gates with the same operator, but these
are put where `moved` says: at the end, in place of whatever is at the old positions by then. -/
theorem C30_exact (h : GateSemantics d sem) {runs : List (List PInstr)} (hR : Runs runs)
    (hp : ∀ r ∈ runs, 2 ≤ r.length → ∃ i : Fin n, ∀ g ∈ r, PhaseGate (d i) (i : Nat) g) (back : Bool) :
    ∃ news : List (List PInstr), news.length = runs.length ∧ (∀ p ∈ runs.zip news, circuitOp sem p.2 = circuitOp sem p.1 ∧
        (2 ≤ p.1.length → ∀ g ∈ p.1, p.2.length = (rotations p.1).length + g.dim)) ∧
      removeZ runs.flatten back = .ok (moved 0 (runs.zip news) runs.flatten) := by
  obtain ⟨news, h1, h2, h3⟩ := removeZ_runs h back runs.flatten runs [] rfl hp
  refine ⟨news, h1, h2, ?_⟩
  unfold removeZ
  rw [findIntervals_runs hR]
  exact h3 _

/-- Every circuit is cut into runs in this way. -/
theorem C30_runs : ∀ (l : List PInstr), (∀ g ∈ l, g.target.lines ≠ []) → ∃ runs, Runs runs ∧ runs.flatten = l
  | [], _ => ⟨[], ⟨by simp, .nil⟩, rfl⟩
  | g :: l, hl => by
    obtain ⟨runs, hR, rfl⟩ := C30_runs l fun g hg => hl g (by simp [hg])
    have hg := hl g (by simp)
    match runs, hR with
    | [], _ => exact ⟨[[g]], ⟨by simpa using hg, .singleton _⟩, rfl⟩
    | r :: rs, hR =>
      obtain ⟨hr, q, hq, hrun⟩ := hR.same r (by simp)
      by_cases e : g.target.lines = q
      · refine ⟨(g :: r) :: rs, ⟨?_, ?_⟩, rfl⟩
        · intro r' hr'
          rcases List.mem_cons.1 hr' with rfl | hr'
          · exact ⟨by simp, q, hq, by intro g' hg'; rcases List.mem_cons.1 hg' with rfl | hg'; exacts [e, hrun g' hg']⟩
          · exact hR.same r' (by simp [hr'])
        · rw [List.isChain_cons]
          obtain ⟨g0, hg0⟩ := List.exists_mem_of_ne_nil _ hr
          refine ⟨fun r' hr' a ha b hb => ?_, (List.isChain_cons.1 hR.differ).2⟩
          have h1 := (List.isChain_cons.1 hR.differ).1 r' hr' g0 hg0 b hb
          rw [hrun g0 hg0] at h1
          rcases List.mem_cons.1 ha with rfl | ha
          · rwa [e]
          · rwa [hrun a ha]
      · refine ⟨[g] :: r :: rs, ⟨?_, ?_⟩, rfl⟩
        · intro r' hr'
          rcases List.mem_cons.1 hr' with rfl | hr'
          · exact ⟨by simp, _, hg, by simp⟩
          · exact hR.same r' hr'
        · rw [List.isChain_cons]
          refine ⟨fun r' hr' a ha b hb => ?_, hR.differ⟩
          obtain rfl : r = r' := by simpa using hr'
          rw [List.mem_singleton.1 ha, hrun b hb]
          exact e

/-- Two runs, and the first at least as long as the second and the gates that replace the first together: nothing is removed for the second run, which is
then applied twice. -/
theorem C30_applied_twice (h : GateSemantics d sem) (i j : Fin n) (hij : i ≠ j) {r s : List PInstr} (hr : ∀ g ∈ r, PhaseGate (d i) (i : Nat) g)
    (hs : ∀ g ∈ s, PhaseGate (d j) (j : Nat) g) (hs2 : 2 ≤ s.length) (back : Bool) (hlen : s.length + (rotations r).length + d i ≤ r.length) :
    ∃ l, removeZ (r ++ s) back = .ok l ∧ circuitOp sem l = circuitOp sem s * circuitOp sem r * circuitOp sem s := by
  have hr2 : 2 ≤ r.length := by omega
  have hR : Runs [r, s] := by
    refine ⟨?_, ?_⟩
    · intro u hu
      rcases List.mem_cons.1 hu with rfl | hu
      · exact ⟨by rintro rfl; simp at hr2, [((i : Nat) : Int)], by simp, fun g hg => by rw [(hr g hg).1]; rfl⟩
      · rw [List.mem_singleton.1 hu]
        exact ⟨by rintro rfl; simp at hs2, [((j : Nat) : Int)], by simp, fun g hg => by rw [(hs g hg).1]; rfl⟩
    · refine List.isChain_cons_cons.2 ⟨fun g hg g' hg' => ?_, .singleton _⟩
      rw [(hr g hg).1, (hs g' hg').1]
      intro e
      have e : [((i : Nat) : Int)] = [((j : Nat) : Int)] := e
      exact hij (Fin.ext (by simpa using e))
  obtain ⟨news, h1, h2, h3⟩ := C30_exact h hR (by
    intro u hu _
    rcases List.mem_cons.1 hu with rfl | hu
    · exact ⟨i, hr⟩
    · rw [List.mem_singleton.1 hu]; exact ⟨j, hs⟩) back
  obtain ⟨a, b, rfl⟩ : ∃ a b, news = [a, b] := List.length_eq_two.1 h1
  have ha := h2 (r, a) (by simp)
  have hb := h2 (s, b) (by simp)
  have hal : a.length = (rotations r).length + d i := by
    obtain ⟨g, hg⟩ := List.exists_mem_of_ne_nil r (by rintro rfl; simp at hr2)
    rw [ha.2 hr2 g hg, (hr g hg).2.1]
  have hf : [r, s].flatten = r ++ s := by simp
  rw [hf] at h3
  refine ⟨_, h3, ?_⟩
  have e : moved 0 ([r, s].zip [a, b]) (r ++ s) = s ++ a ++ b := by
    simp only [List.zip_cons_cons, List.zip_nil_right, moved, if_pos hr2, if_pos hs2, List.take_zero, List.nil_append, Nat.zero_add, List.drop_left]
    rw [List.take_of_length_le (by rw [List.length_append, hal]; omega), List.drop_eq_nil_of_le (by rw [List.length_append, hal]; omega)]
    simp
  rw [e, circuitOp_append, circuitOp_append, ha.1, hb.1, ← mul_assoc]

/-- A run of at least two gates on several lines makes the pass raise, wherever it is. -/
theorem C30_refused {runs : List (List PInstr)} (hR : Runs runs) {r : List PInstr} (hr : r ∈ runs) (h2 : 2 ≤ r.length)
    (hm : ∃ qs, ∀ g ∈ r, g.target = .many qs) (back : Bool) : ∃ e, removeZ runs.flatten back = .error e := by
  have key : ∀ (runs : List (List PInstr)) (pre l : List PInstr), r ∈ runs → l = pre ++ runs.flatten → ∀ cur,
      ∃ e, (places pre.length runs).foldlM (removeZStep l back) cur = .error e := by
    intro runs
    induction runs with
    | nil => intro _ _ h; cases h
    | cons s rs ih =>
      intro pre l hmem hl cur
      rw [places, List.foldlM_cons]
      rcases List.mem_cons.1 hmem with rfl | hmem
      · obtain ⟨g, r', rfl⟩ := List.exists_cons_of_ne_nil (show r ≠ [] by rintro rfl; simp at h2)
        obtain ⟨qs, hq⟩ := hm
        have hseq : (l.take (pre.length + (g :: r').length)).drop pre.length = g :: r' := by
          rw [hl, List.flatten_cons, ← List.append_assoc, ← List.length_append, List.take_left, List.drop_left]
        have hhead : (List.range' pre.length (g :: r').length).headD 0 = pre.length := by
          rw [List.length_cons, List.range'_succ]; rfl
        have hgl : (List.range' pre.length (g :: r').length).getLastD 0 = pre.length + (g :: r').length - 1 := by
          rw [List.getLastD_eq_getLast?, List.getLast?_range', if_neg (by simp)]
          simp
        have hz : propagateZ (g :: r') back = .error .typeError := by
          unfold propagateZ
          simp only [hq g (by simp)]
        refine ⟨.typeError, ?_⟩
        unfold removeZStep
        dsimp only
        rw [if_pos (by rw [List.length_range']; omega), hhead, hgl,
          show pre.length + (g :: r').length - 1 + 1 = pre.length + (g :: r').length by rw [List.length_cons]; omega, hseq, hz]
        rfl
      · cases hstep : removeZStep l back cur (List.range' pre.length s.length) with
        | error e => exact ⟨e, rfl⟩
        | ok c =>
          have := ih (pre ++ s) l hmem (by rw [hl]; simp) c
          rw [List.length_append] at this
          exact this
  unfold removeZ
  rw [findIntervals_runs hR]
  exact key runs [] _ hr rfl _

/-- four turns of a phase on line 0 and two rotations on line 1: the two rotations are applied twice -/
example {sem : PInstr → Matrix (Reg fun _ : Fin 2 => 2) (Reg fun _ : Fin 2 => 2) ℂ} (h : GateSemantics (fun _ : Fin 2 => 2) sem) (z : PInstr) (hz : PhaseGate 2 0 z) (hk : ∃ p, z.kind = .virtRz p) :
    ∃ l, removeZ ([z, z, z, z] ++ [qubitR 1 (Real.pi / 2) 0, qubitR 1 (Real.pi / 2) 0]) true = .ok l ∧
      circuitOp sem l = circuitOp sem [qubitR 1 (Real.pi / 2) 0, qubitR 1 (Real.pi / 2) 0] * circuitOp sem [z, z, z, z] *
        circuitOp sem [qubitR 1 (Real.pi / 2) 0, qubitR 1 (Real.pi / 2) 0] := by
  obtain ⟨p, hp⟩ := hk
  refine C30_applied_twice h 0 1 (by decide) ?_ ?_ (by simp) true (by simp [rotations, hp])
  · intro g hg
    obtain rfl : g = z := by simpa using hg
    exact hz
  · intro g hg
    simp only [List.mem_cons, List.not_mem_nil, or_false, or_self] at hg
    rw [hg]; exact qubitR_phase _ _ _

example : ∃ z, PhaseGate 2 0 z ∧ ∃ p, z.kind = .virtRz p :=
  ⟨⟨.virtRz ⟨0, 1, 0, 1⟩, .one 0, 2, none, false⟩, ⟨rfl, rfl, rfl, rfl, Or.inr ⟨_, rfl, by decide, by decide⟩⟩, _, rfl⟩

end Qudits
