import Verif.Lemmas.Resynth
import Verif.Props.LanesProps
/-
C33: merging runs of single-qudit gates keeps the operator and leaves no two consecutive single-qudit gates on a line.
-/
namespace Qudits
open Spec Lanes Resynth

/-- A gate of a circuit over the register `d`: well formed, on lines of the register, and a single-qudit gate on a line
carries a square matrix of that line's dimension. -/
def GateOver {n : Nat} (d : Fin n → Nat) (g : Op (Arr2 ℂ)) : Prop :=
  WellFormed g ∧ (∀ q, Touches q g → ∃ i : Fin n, q = (i : Nat)) ∧
  ∀ i : Fin n, g.target = .one (i : Nat) → g.body.rows = d i ∧ g.body.cols = d i

/-- `sem` gives every gate its operator: a single-qudit gate applies its matrix to its line, any other gate does anything
on its lines. -/
def Semantics {n : Nat} (d : Fin n → Nat) (sem : Op (Arr2 ℂ) → Matrix (Reg d) (Reg d) ℂ) : Prop :=
  (∀ (g : Op (Arr2 ℂ)) (i : Fin n), g.single = true → g.target = .one (i : Nat) →
    sem g = embed1 (X := LvOf d) i (g.body.toM (d i))) ∧
  ∀ (g : Op (Arr2 ℂ)) (qs : List Int), g.single = false → g.target = .many qs → ActsOn d qs (sem g)

theorem GateOver.touched {n : Nat} {d : Fin n → Nat} {g : Op (Arr2 ℂ)} (h : GateOver d g) : ∃ q, Touches q g := by
  rcases h.1 with ⟨_, q, hq⟩ | ⟨_, qs, hne, _, hqs⟩
  · exact ⟨q, by unfold Touches; rw [hq]; simp [Target.lines]⟩
  · obtain ⟨q, hq⟩ := List.exists_mem_of_ne_nil qs hne
    exact ⟨q, by unfold Touches; rw [hqs]; exact hq⟩

theorem Semantics.actsOn {n : Nat} {d : Fin n → Nat} {sem : Op (Arr2 ℂ) → Matrix (Reg d) (Reg d) ℂ}
    (hsem : Semantics d sem) {g : Op (Arr2 ℂ)} (hg : GateOver d g) : ActsOn d g.target.lines (sem g) := by
  rcases hg.1 with ⟨hs, q, hq⟩ | ⟨hs, qs, _, _, hqs⟩
  · obtain ⟨i, rfl⟩ := hg.2.1 q (by unfold Touches; rw [hq]; simp [Target.lines])
    rw [hsem.1 g i hs hq, hq]
    have hset : lineSet n (Target.lines (.one ((i : Nat) : Int))) = {i} := by
      ext j
      simp [lineSet, Target.lines, Fin.ext_iff]
    unfold ActsOn
    rw [hset]
    exact ⟨_, embed1_eq_embed (X := LvOf d) i _⟩
  · rw [hqs]; exact hsem.2 g qs hs hqs

theorem runMatrix_toM (dim : Nat) (g : List (LaneItem (Arr2 ℂ)))
    (hg : ∀ t ∈ g, t.2.body.rows = dim ∧ t.2.body.cols = dim) (m0 m : Arr2 ℂ) (h0 : m0.rows = dim ∧ m0.cols = dim)
    (h : g.foldlM (fun m t => Arr2.matmul t.2.body m) m0 = .ok m) :
    m.rows = dim ∧ m.cols = dim ∧ m.toM dim = circuitOp (fun t => t.2.body.toM dim) g * m0.toM dim := by
  induction g generalizing m0 with
  | nil =>
    cases h
    exact ⟨h0.1, h0.2, by rw [circuitOp_nil, one_mul]⟩
  | cons t g ih =>
    obtain ⟨A, hA, h1, h2, h3⟩ := matmul_ok t.2.body m0 dim (hg t (by simp)).1 (hg t (by simp)).2 h0.1 h0.2
    rw [List.foldlM_cons, hA] at h
    obtain ⟨e1, e2, e3⟩ := ih (fun s hs => hg s (List.mem_cons_of_mem _ hs)) A ⟨h1, h2⟩ h
    refine ⟨e1, e2, ?_⟩
    rw [e3, h3, circuitOp_cons, mul_assoc]

theorem identity_toM (dim : Nat) : (Arr2.identity dim : Arr2 ℂ).toM dim = 1 := by
  ext i j
  simp [Arr2.toM, Arr2.identity, Matrix.one_apply, Fin.ext_iff]

theorem embed1_circuitOp {n : Nat} (d : Fin n → Nat) (i : Fin n) (g : List (LaneItem (Arr2 ℂ))) :
    embed1 (X := LvOf d) i (circuitOp (fun t : LaneItem (Arr2 ℂ) => t.2.body.toM (d i)) g) =
      circuitOp (fun t : LaneItem (Arr2 ℂ) => embed1 (X := LvOf d) i (t.2.body.toM (d i))) g := by
  induction g with
  | nil => rw [circuitOp_nil, circuitOp_nil]; exact embed1_one (X := LvOf d) i
  | cons t g ih =>
    rw [circuitOp_cons, circuitOp_cons, ← ih]
    exact (embed1_mul (X := LvOf d) i _ _).symm

theorem circuitOp_congr {γ M : Type} [Monoid M] (f g : γ → M) (l : List γ) (h : ∀ a ∈ l, f a = g a) :
    circuitOp f l = circuitOp g l := by
  unfold circuitOp
  rw [List.map_congr_left h]

theorem circuitOp_map {γ δ M : Type} [Monoid M] (f : δ → M) (g : γ → δ) (l : List γ) :
    circuitOp f (l.map g) = circuitOp (fun a => f (g a)) l := by
  unfold circuitOp
  rw [List.map_map]; rfl

/-- C33. For every circuit of distinct gate objects over a register, and any identity `next` not used by them, the pass
returns a circuit such that
* it is the same operator;
* on every line, no two consecutive gates are single-qudit gates;
* the multi-qudit gates on every line are the same objects in the same order, and the new single-qudit gates are again
  gates over the register. -/
theorem C33_resynth {n : Nat} (d : Fin n → Nat) (l : List (Op (Arr2 ℂ))) (hid : (l.map Op.oid).Nodup)
    (hl : ∀ g ∈ l, GateOver d g) (next : Nat) (hnext : ∀ g ∈ l, g.oid < next) :
    ∃ l', Resynth.transpile (List.ofFn d) next l = .ok l' ∧
      (∀ sem, Semantics d sem → circuitOp sem l' = circuitOp sem l) ∧
      (∀ q, (lane q l').IsChain fun a b => ¬ (a.single = true ∧ b.single = true)) ∧
      (∀ q, (lane q l').filter (fun g => !g.single) = (lane q l).filter (fun g => !g.single)) ∧
      (∀ g ∈ l', GateOver d g) ∧
      (∀ M : ∀ i, Submonoid (Matrix (Fin (d i)) (Fin (d i)) ℂ),
        (∀ g ∈ l, ∀ i : Fin n, g.single = true → g.target = .one (i : Nat) → g.body.toM (d i) ∈ M i) →
        ∀ g ∈ l', ∀ i : Fin n, g.single = true → g.target = .one (i : Nat) → g.body.toM (d i) ∈ M i) := by
  obtain ⟨D, h1, h2, h3⟩ := lanes_good l hid (fun g hg => (hl g hg).1)
  have hmem : ∀ q, ∀ t ∈ (PyDict.get? D q).getD [], t.2 ∈ l := by
    intro q t ht
    rw [h3, List.mem_filter] at ht
    rw [← preProcess_ops 0 l]
    exact List.mem_map_of_mem ht.1
  have hne : ∀ q ∈ PyDict.keys D, (PyDict.get? D q).getD [] ≠ [] :=
    create_ne _ [] D (by simp [PyDict.keys]) h1
  have hline : ∀ q ∈ PyDict.keys D, ∃ i : Fin n, q = (i : Nat) := by
    intro q hq
    obtain ⟨t, ht⟩ := List.exists_mem_of_ne_nil _ (hne q hq)
    exact (hl _ (hmem q t ht)).2.1 q (h2.touches q t ht)
  have hdimOf : ∀ i : Fin n, dimOf (List.ofFn d) ((i : Nat) : Int) = .ok (d i) := by
    intro i
    unfold dimOf
    rw [if_neg (by omega)]
    simp
  have htarget : ∀ q, ∀ t ∈ (PyDict.get? D q).getD [], t.2.single = true → t.2.target = .one q := by
    intro q t ht hs
    have htq := h2.touches q t ht
    obtain ⟨p, hp⟩ := wf_target (hl _ (hmem q t ht)).1 (by rw [hs]; simp)
    unfold Touches at htq
    rw [hp] at htq
    simp [Target.lines] at htq
    rw [hp, htq]
  have hshape : ∀ q ∈ PyDict.keys D, ∃ dim, dimOf (List.ofFn d) q = .ok dim ∧
      ∀ t ∈ (PyDict.get? D q).getD [], t.2.single = true → t.2.body.rows = dim ∧ t.2.body.cols = dim := by
    intro q hq
    obtain ⟨i, rfl⟩ := hline q hq
    exact ⟨d i, hdimOf i, fun t ht hs => (hl _ (hmem _ t ht)).2.2 i (htarget _ t ht hs)⟩
  have hknd : (sortedKeys D).Nodup := (List.perm_insertionSort _ _).nodup_iff.2 h2.keys
  have hkm : ∀ q, q ∈ sortedKeys D ↔ q ∈ PyDict.keys D := fun q => (List.perm_insertionSort _ _).mem_iff
  obtain ⟨D', next', lo, hi, e1, e2, e3, e4, e5, e6⟩ := doLines_ok (List.ofFn d) D next h2.keys hne
    (fun q t ht => (hl _ (hmem q t ht)).1) h2.touches hshape (sortedKeys D) hknd (fun q hq => (hkm q).1 hq)
  -- uniform description of the lanes of the result
  have key : ∀ q, ((PyDict.get? D' q).getD [] = [] ∧ (PyDict.get? D q).getD [] = []) ∨
      (q ∈ PyDict.keys D ∧ LineDone (List.ofFn d) q (lo q) (hi q) ((PyDict.get? D q).getD []) ((PyDict.get? D' q).getD [])
        ∧ next ≤ lo q) := by
    intro q
    by_cases hq : q ∈ PyDict.keys D
    · right
      obtain ⟨a, b, -⟩ := e5 q ((hkm q).2 hq)
      exact ⟨hq, a, b⟩
    · left
      have hn := (PyDict.get?_eq_none_iff D q).2 hq
      rw [e4 q (fun h => hq ((hkm q).1 h)), hn]
      simp
  -- every item of the result
  have hitem : ∀ q, ∀ t ∈ (PyDict.get? D' q).getD [],
      (t.2.single = false ∧ t ∈ (PyDict.get? D q).getD []) ∨
      (t.2.single = true ∧ t.2.target = .one q ∧ lo q ≤ t.2.oid ∧ t.2.oid < hi q ∧ next ≤ lo q ∧ q ∈ PyDict.keys D) := by
    intro q t ht
    rcases key q with ⟨h, _⟩ | ⟨hq, ⟨dim, F, hdim, hG, hR, -⟩, hn⟩
    · rw [h] at ht; simp at ht
    · obtain ⟨g, hg, hr⟩ := forall₂_mem_right hR t ht
      rcases hr with ⟨rfl, hs⟩ | ⟨_, _, hs, htg, a, b, _⟩
      · left
        refine ⟨hs, ?_⟩
        rw [← hG.flat]
        exact List.mem_flatten.2 ⟨_, hg, by simp⟩
      · exact Or.inr ⟨hs, htg, a, b, hn, hq⟩
  have hentkept : ∀ q, ∀ t ∈ (PyDict.get? D q).getD [], t.2.single = false → t ∈ (PyDict.get? D' q).getD [] := by
    intro q t ht hs
    rcases key q with ⟨_, h⟩ | ⟨hq, ⟨dim, F, hdim, hG, hR, -⟩, hn⟩
    · rw [h] at ht; simp at ht
    · rw [← hG.flat] at ht
      obtain ⟨g, hg, htg⟩ := List.mem_flatten.1 ht
      obtain ⟨y, hy, hr⟩ := forall₂_mem_left hR g hg
      rcases hr with ⟨rfl, -⟩ | ⟨hrun, _⟩
      · rw [List.mem_singleton] at htg
        rw [htg]; exact hy
      · have := hrun.2 t htg
        rw [hs] at this; cases this
  have hold : ∀ q, ∀ t ∈ (PyDict.get? D q).getD [], t.2.oid < next := fun q t ht => hnext _ (hmem q t ht)
  have hgood : Good D' := by
    refine ⟨e2, ?_, ?_, ?_, ?_⟩
    · intro q t ht
      rcases hitem q t ht with ⟨_, h⟩ | ⟨_, h, _⟩
      · exact h2.touches q t h
      · unfold Touches; rw [h]; simp [Target.lines]
    · intro q t ht q' hq'
      rcases hitem q t ht with ⟨hs, h⟩ | ⟨_, h, _⟩
      · exact hentkept q' t (h2.everywhere q t h q' hq') hs
      · unfold Touches at hq'
        rw [h] at hq'
        simp [Target.lines] at hq'
        rw [hq']; exact ht
    · intro q q' t ht t' ht' he
      rcases hitem q t ht with ⟨_, h⟩ | ⟨hs, htg, a, b, c, hqk⟩ <;>
        rcases hitem q' t' ht' with ⟨_, h'⟩ | ⟨hs', htg', a', b', c', hqk'⟩
      · exact h2.ids q q' t h t' h' he
      · have := hold q t h; omega
      · have := hold q' t' h'; omega
      · by_cases hqq : q = q'
        · subst hqq
          rcases key q with ⟨h, _⟩ | ⟨hq, ⟨dim, F, hdim, hG, hR, hp⟩, hn⟩
          · rw [h] at ht; simp at ht
          · by_contra hne'
            rcases pair_or ht ht' hne' with h | h
            · have := (List.pairwise_iff_forall_sublist.1 hp) h hs hs'; omega
            · have := (List.pairwise_iff_forall_sublist.1 hp) h hs' hs; omega
        · have := e6 q ((hkm q).2 hqk) q' ((hkm q').2 hqk') hqq
          omega
    · intro q
      rcases key q with ⟨h, _⟩ | ⟨hq, ⟨dim, F, hdim, hG, hR, hp⟩, hn⟩
      · rw [h]; exact List.Pairwise.nil
      · have hord := h2.order q
        rw [← hG.flat, List.pairwise_flatten] at hord
        have hfirst : ((PyDict.get? D' q).getD []).Pairwise fun x y =>
            (x.1 < y.1 ∨ (x.1 = y.1 ∧ ∃ p, y.2.target = .one p)) ∧
              (x.2.single = false → y.2.single = false → x.2.oid ≠ y.2.oid) := by
          refine forall₂_pairwise hR hord.2 ?_
          intro g hg g' hg' x y hP hx hy
          have hsplit : ∃ a ∈ g, x.1 = a.1 ∧ (x.2.single = false → x = a) := by
            rcases hx with ⟨rfl, _⟩ | ⟨_, ⟨a, ha, hxa⟩, hs, _⟩
            · exact ⟨x, by simp, rfl, fun _ => rfl⟩
            · exact ⟨a, List.mem_of_mem_head? ha, hxa, fun h => by rw [hs] at h; cases h⟩
          obtain ⟨a, ha, hxa, hxs⟩ := hsplit
          rcases hy with ⟨rfl, hys⟩ | ⟨_, ⟨b, hb, hyb⟩, hs, htg, _⟩
          · obtain ⟨hne', hlt⟩ := hP a ha y (by simp)
            refine ⟨?_, fun h _ => by rw [hxs h]; exact hne'⟩
            rw [hxa]
            exact hlt
          · obtain ⟨-, hlt⟩ := hP a ha b (List.mem_of_mem_head? hb)
            refine ⟨?_, fun _ h => by rw [hs] at h; cases h⟩
            rw [hxa, hyb]
            rcases hlt with h | ⟨h, _⟩
            · exact Or.inl h
            · exact Or.inr ⟨h, q, htg⟩
        refine (hfirst.and hp).imp_of_mem ?_
        intro x y hx hy hxy
        refine ⟨?_, hxy.1.1⟩
        rcases hitem q x hx with ⟨hs, h⟩ | ⟨hs, _, a, _, c, _⟩ <;>
          rcases hitem q y hy with ⟨hs', h'⟩ | ⟨hs', _, a', _, c', _⟩
        · exact hxy.1.2 hs hs'
        · have := hold q x h; omega
        · have := hold q y h'; omega
        · have := hxy.2 hs hs'; omega
  have hlane : ∀ q, lane q (extract D') = ((PyDict.get? D' q).getD []).map Prod.snd := fun q => extract_lane hgood q
  have hlane0 : ∀ q, lane q l = ((PyDict.get? D q).getD []).map Prod.snd := by
    intro q
    rw [h3]
    conv_lhs => rw [← preProcess_ops 0 l]
    unfold lane
    rw [List.filter_map]
    rfl
  have hover : ∀ g ∈ extract D', GateOver d g := by
    intro g hg
    obtain ⟨q, t, ht, rfl⟩ := extract_mem g hg
    rcases key q with ⟨h, _⟩ | ⟨hq, ⟨dim, F, hdim, hG, hR, hp⟩, hn⟩
    · rw [h] at ht; simp at ht
    · obtain ⟨g, hg, hr⟩ := forall₂_mem_right hR t ht
      rcases hr with ⟨rfl, hs⟩ | ⟨hrun, _, hs, htg, _, _, hrm⟩
      · apply hl
        apply hmem q
        rw [← hG.flat]
        exact List.mem_flatten.2 ⟨_, hg, by simp⟩
      · obtain ⟨i, rfl⟩ := hline q hq
        rw [hdimOf] at hdim
        cases hdim
        have hgm : ∀ s ∈ g, s ∈ (PyDict.get? D ((i : Nat) : Int)).getD [] := by
          intro s hs'
          rw [← hG.flat]
          exact List.mem_flatten.2 ⟨g, hg, hs'⟩
        obtain ⟨r1, r2, -⟩ := runMatrix_toM (d i) g (fun s hs' =>
          (hl _ (hmem _ s (hgm s hs'))).2.2 i (htarget _ s (hgm s hs') (hrun.2 s hs'))) _ _ ⟨rfl, rfl⟩ hrm
        refine ⟨Or.inl ⟨hs, _, htg⟩, ?_, ?_⟩
        · intro q hq
          unfold Touches at hq
          rw [htg] at hq
          simp [Target.lines] at hq
          exact ⟨i, hq⟩
        · intro j hj
          rw [htg] at hj
          have : i = j := by
            have := Target.one.inj hj
            exact Fin.ext (by omega)
          subst this
          exact ⟨r1, r2⟩
  have hsub : ∀ M : ∀ i, Submonoid (Matrix (Fin (d i)) (Fin (d i)) ℂ),
      (∀ g ∈ l, ∀ i : Fin n, g.single = true → g.target = .one (i : Nat) → g.body.toM (d i) ∈ M i) →
      ∀ g ∈ extract D', ∀ i : Fin n, g.single = true → g.target = .one (i : Nat) → g.body.toM (d i) ∈ M i := by
    intro M hM g hg j hgs hgt
    obtain ⟨q, t, ht, rfl⟩ := extract_mem g hg
    rcases key q with ⟨h, _⟩ | ⟨hq, ⟨dim, F, hdim, hG, hR, hp⟩, hn⟩
    · rw [h] at ht; simp at ht
    · obtain ⟨g, hg, hr⟩ := forall₂_mem_right hR t ht
      rcases hr with ⟨rfl, hs⟩ | ⟨hrun, _, hs, htg, _, _, hrm⟩
      · rw [hs] at hgs; cases hgs
      · rw [htg] at hgt
        obtain rfl := Target.one.inj hgt
        rw [hdimOf] at hdim
        cases hdim
        have hgm : ∀ s ∈ g, s ∈ (PyDict.get? D ((j : Nat) : Int)).getD [] := by
          intro s hs'
          rw [← hG.flat]
          exact List.mem_flatten.2 ⟨g, hg, hs'⟩
        obtain ⟨-, -, r3⟩ := runMatrix_toM (d j) g (fun s hs' =>
          (hl _ (hmem _ s (hgm s hs'))).2.2 j (htarget _ s (hgm s hs') (hrun.2 s hs'))) _ _ ⟨rfl, rfl⟩ hrm
        rw [r3, identity_toM, mul_one]
        refine (M j).list_prod_mem fun x hx => ?_
        rw [List.mem_reverse, List.mem_map] at hx
        obtain ⟨s, hs', rfl⟩ := hx
        exact hM _ (hmem _ s (hgm s hs')) j (hrun.2 s hs') (htarget _ s (hgm s hs') (hrun.2 s hs'))
  refine ⟨extract D', ?_, ?_, ?_, ?_, hover, hsub⟩
  · unfold Resynth.transpile
    rw [h1]
    change ((sortedKeys D).foldlM (doLine (List.ofFn d)) (D, next) >>= fun p => pure (extract p.1)) = _
    rw [e1]; rfl
  · intro sem hsem
    symm
    refine circuitOp_eq_of_groups sem (fun g => GateOver d g) ?_ l (extract D') hl (fun g hg => (hl g hg).touched)
      (fun g hg => (hover g hg).touched) ?_
    · intro a b ha hb hdis
      exact actsOn_commute (hsem.actsOn ha) (hsem.actsOn hb) hdis
    · intro q
      rw [hlane, hlane0]
      rcases key q with ⟨h, h'⟩ | ⟨hq, ⟨dim, F, hdim, hG, hR, hp⟩, hn⟩
      · rw [h, h']
        exact ⟨[], rfl, List.Forall₂.nil⟩
      · refine ⟨F.map fun g => g.map Prod.snd, ?_, ?_⟩
        · conv_lhs => rw [← hG.flat]
          rw [List.map_flatten]
        · rw [List.forall₂_map_left_iff, List.forall₂_map_right_iff]
          obtain ⟨i, rfl⟩ := hline q hq
          rw [hdimOf] at hdim
          cases hdim
          have hgm : ∀ g ∈ F, ∀ s ∈ g, s ∈ (PyDict.get? D ((i : Nat) : Int)).getD [] := by
            intro g hg s hs'
            rw [← hG.flat]
            exact List.mem_flatten.2 ⟨g, hg, hs'⟩
          refine ((List.forall₂_and_left (p := fun g => g ∈ F) F _).2 ⟨fun g hg => hg, hR⟩).imp ?_
          rintro g t ⟨hg, ⟨rfl, hs⟩ | ⟨hrun, _, hs, htg, _, _, hrm⟩⟩
          · unfold StandsFor
            rcases (hl _ (hmem _ t (hgm _ hg t (by simp)))).1 with ⟨hs', _⟩ | ⟨_, qs, _, _, hqs⟩
            · rw [hs] at hs'; cases hs'
            · rw [hqs]; rfl
          · unfold StandsFor
            rw [htg]
            refine ⟨rfl, ?_, ?_⟩
            · intro a ha
              obtain ⟨s, hs', rfl⟩ := List.mem_map.1 ha
              exact htarget _ s (hgm g hg s hs') (hrun.2 s hs')
            · rw [hsem.1 t.2 i hs htg]
              obtain ⟨-, -, r3⟩ := runMatrix_toM (d i) g (fun s hs' =>
                (hl _ (hmem _ s (hgm g hg s hs'))).2.2 i (htarget _ s (hgm g hg s hs') (hrun.2 s hs'))) _ _ ⟨rfl, rfl⟩ hrm
              rw [r3, identity_toM, mul_one, embed1_circuitOp, circuitOp_map]
              apply circuitOp_congr
              intro s hs'
              rw [hsem.1 s.2 i (hrun.2 s hs') (htarget _ s (hgm g hg s hs') (hrun.2 s hs'))]
  · intro q
    rw [hlane]
    rcases key q with ⟨h, _⟩ | ⟨hq, ⟨dim, F, hdim, hG, hR, hp⟩, hn⟩
    · rw [h]; exact List.IsChain.nil
    · have := forall₂_chain (Q := fun x y : LaneItem (Arr2 ℂ) => ¬ (x.2.single = true ∧ y.2.single = true)) hR hG.alternate (by
        rintro g g' x y hc hx hy ⟨hxs, hys⟩
        rcases hc with ⟨t, rfl, hts⟩ | ⟨t, rfl, hts⟩
        · rcases hx with ⟨h, hs⟩ | ⟨hrun, _⟩
          · rw [hxs] at hs; cases hs
          · have := hrun.2 t (by simp)
            rw [hts] at this; cases this
        · rcases hy with ⟨h, hs⟩ | ⟨hrun, _⟩
          · rw [hys] at hs; cases hs
          · have := hrun.2 t (by simp)
            rw [hts] at this; cases this)
      rw [List.isChain_map]
      exact this
  · intro q
    rw [hlane, hlane0]
    rcases key q with ⟨h, h'⟩ | ⟨hq, ⟨dim, F, hdim, hG, hR, hp⟩, hn⟩
    · rw [h, h']
    · conv_rhs => rw [← hG.flat]
      generalize (PyDict.get? D' q).getD [] = ts at hR
      clear hp hG
      induction hR with
      | nil => rfl
      | @cons g t F ts hab _ ih =>
        rw [List.map_cons, List.flatten_cons, List.map_append, List.filter_append, ← ih]
        rcases hab with ⟨rfl, hs⟩ | ⟨hrun, _, hs, _⟩
        · rw [List.filter_cons_of_pos (by simp [hs])]
          simp [hs]
        · rw [List.filter_cons_of_neg (by simp [hs])]
          have : (g.map Prod.snd).filter (fun g => !g.single) = [] := by
            rw [List.filter_eq_nil_iff]
            intro a ha
            obtain ⟨s, hs', rfl⟩ := List.mem_map.1 ha
            simp [hrun.2 s hs']
          rw [this, List.nil_append]

/-- a circuit satisfying the hypotheses: two gates on line 0, an entangling gate, one more gate on line 0 -/
example : ∀ g ∈ [(⟨0, true, .one 0, Arr2.identity 2⟩ : Op (Arr2 ℂ)), ⟨1, true, .one 0, Arr2.identity 2⟩,
    ⟨2, false, .many [0, 1], Arr2.identity 4⟩, ⟨3, true, .one 0, Arr2.identity 2⟩], GateOver ![2, 2] g := by
  have h1 : ∀ k, GateOver ![2, 2] (⟨k, true, .one 0, Arr2.identity 2⟩ : Op (Arr2 ℂ)) := by
    intro k
    refine ⟨Or.inl ⟨rfl, 0, rfl⟩, ?_, ?_⟩
    · intro q hq
      unfold Touches Target.lines at hq
      simp at hq
      exact ⟨0, by simp [hq]⟩
    · intro i hi
      have := Target.one.inj hi
      have : i = 0 := Fin.ext (by simp; omega)
      subst this
      exact ⟨rfl, rfl⟩
  intro g hg
  simp only [List.mem_cons, List.not_mem_nil, or_false] at hg
  rcases hg with rfl | rfl | rfl | rfl
  · exact h1 0
  · exact h1 1
  · refine ⟨Or.inr ⟨rfl, [0, 1], by decide, by decide, rfl⟩, ?_, ?_⟩
    · intro q hq
      unfold Touches Target.lines at hq
      simp at hq
      rcases hq with rfl | rfl
      · exact ⟨0, rfl⟩
      · exact ⟨1, rfl⟩
    · intro i hi; cases hi
  · exact h1 3

/-- and what the pass makes of it: a merged gate, the entangling gate, another new gate -/
example : (Resynth.transpile (α := Int) [2, 2] 4 [⟨0, true, .one 0, Arr2.identity 2⟩, ⟨1, true, .one 0, Arr2.identity 2⟩,
    ⟨2, false, .many [0, 1], Arr2.identity 4⟩, ⟨3, true, .one 0, Arr2.identity 2⟩]).map (fun l => l.map Op.oid) =
    .ok [4, 2, 5] := by rfl

end Qudits
