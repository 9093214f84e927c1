import Verif.Spec.CircuitOp
import Verif.Lemmas.Space
import Mathlib.Algebra.Group.Commute.Basic
import Mathlib.Algebra.BigOperators.Group.List.Basic
/-
The operator of a circuit is determined by what happens on every line.
-/
namespace Qudits.Spec

variable {β M : Type} [Monoid M]

theorem circuitOp_cons (sem : β → M) (a : β) (l : List β) : circuitOp sem (a :: l) = circuitOp sem l * sem a := by
  simp [circuitOp]

theorem circuitOp_nil (sem : β → M) : circuitOp sem [] = 1 := rfl

theorem circuitOp_append (sem : β → M) (a b : List β) :
    circuitOp sem (a ++ b) = circuitOp sem b * circuitOp sem a := by
  simp [circuitOp]

theorem commute_circuitOp (sem : β → M) (a : β) (l : List β) (h : ∀ b ∈ l, Commute (sem a) (sem b)) :
    Commute (sem a) (circuitOp sem l) := by
  induction l with
  | nil => exact Commute.one_right _
  | cons b l ih =>
    rw [circuitOp_cons]
    exact (ih fun c hc => h c (List.mem_cons_of_mem _ hc)).mul_right (h b (by simp))

theorem lane_append (q : Int) (a b : List (Op β)) : lane q (a ++ b) = lane q a ++ lane q b := List.filter_append ..

theorem lane_cons_pos {q : Int} {a : Op β} (h : Touches q a) (l : List (Op β)) : lane q (a :: l) = a :: lane q l := by
  unfold lane; rw [List.filter_cons_of_pos (by simpa using h)]

theorem lane_cons_neg {q : Int} {a : Op β} (h : ¬ Touches q a) (l : List (Op β)) : lane q (a :: l) = lane q l := by
  unfold lane; rw [List.filter_cons_of_neg (by simpa using h)]

/-- disjoint gates commute, for the gates satisfying `V` -/
def Commuting (sem : Op β → M) (V : Op β → Prop) : Prop :=
  ∀ a b, V a → V b → (∀ q, ¬ (Touches q a ∧ Touches q b)) → Commute (sem a) (sem b)

/-- A gate that comes first on all its lines can be moved to the front. -/
theorem pull_front (sem : Op β → M) (V : Op β → Prop) (hV : Commuting sem V) (a : Op β) (u : List (Op β))
    (hu : ∀ b ∈ u, V b) (hne : ∃ q, Touches q a) (h : ∀ q, Touches q a → (lane q u).head? = some a) :
    ∃ u', circuitOp sem u = circuitOp sem (a :: u') ∧ (∀ b ∈ u', b ∈ u) ∧ u'.length + 1 = u.length ∧
      (∀ q, Touches q a → lane q u = a :: lane q u') ∧ (∀ q, ¬ Touches q a → lane q u' = lane q u) := by
  have hmem : a ∈ u := by
    obtain ⟨q, hq⟩ := hne
    have := List.mem_of_mem_head? (h q hq)
    exact (List.mem_filter.1 this).1
  obtain ⟨p, s, rfl, hp⟩ : ∃ p s, u = p ++ a :: s ∧ ∀ b ∈ p, ∀ q, ¬ (Touches q a ∧ Touches q b) := by
    clear hne hu
    induction u with
    | nil => simp at hmem
    | cons b u ih =>
      by_cases hab : b = a
      · subst hab
        exact ⟨[], u, rfl, by simp⟩
      · have hind : ∀ q, ¬ (Touches q a ∧ Touches q b) := by
          rintro q ⟨h1, h2⟩
          have := h q h1
          rw [lane_cons_pos h2, List.head?_cons] at this
          exact hab (Option.some.inj this)
        obtain ⟨p, s, hps, hp⟩ := ih (by
          intro q hq
          have := h q hq
          rwa [lane_cons_neg (fun hb => hind q ⟨hq, hb⟩)] at this) (by
          rcases List.mem_cons.1 hmem with e | e
          · exact absurd e.symm hab
          · exact e)
        refine ⟨b :: p, s, by rw [hps]; rfl, ?_⟩
        intro c hc
        rcases List.mem_cons.1 hc with rfl | hc
        · exact hind
        · exact hp c hc
  have hlane : ∀ q, Touches q a → lane q p = [] := by
    intro q hq
    unfold lane
    rw [List.filter_eq_nil_iff]
    intro b hb hc
    exact hp b hb q ⟨hq, by simpa using hc⟩
  refine ⟨p ++ s, ?_, ?_, ?_, ?_, ?_⟩
  · rw [circuitOp_append, circuitOp_cons, circuitOp_cons, circuitOp_append]
    have hc : Commute (sem a) (circuitOp sem p) := commute_circuitOp sem a p fun b hb =>
      hV a b (hu a (by simp)) (hu b (by simp [hb])) (hp b hb)
    rw [mul_assoc, mul_assoc, hc.eq]
  · intro b hb
    rcases List.mem_append.1 hb with hb | hb <;> simp [hb]
  · simp
    omega
  · intro q hq
    rw [lane_append, lane_append, lane_cons_pos hq, hlane q hq, List.nil_append, List.nil_append]
  · intro q hq
    rw [lane_append, lane_append, lane_cons_neg hq]

/-- Two circuits with the same gates in the same order on every line are the same operator. -/
theorem circuitOp_eq_of_lanes (sem : Op β → M) (V : Op β → Prop) (hV : Commuting sem V) (u v : List (Op β))
    (hu : ∀ b ∈ u, V b) (hne : ∀ b ∈ u, ∃ q, Touches q b) (hne' : ∀ b ∈ v, ∃ q, Touches q b)
    (h : ∀ q, lane q u = lane q v) : circuitOp sem u = circuitOp sem v := by
  induction v generalizing u with
  | nil =>
    cases u with
    | nil => rfl
    | cons b u =>
      obtain ⟨q, hq⟩ := hne b (by simp)
      have := h q
      rw [lane_cons_pos hq] at this
      cases this
  | cons a v ih =>
    obtain ⟨u', h1, h2, h3, h4, h5⟩ := pull_front sem V hV a u hu (hne' a (by simp)) (by
      intro q hq
      rw [h q, lane_cons_pos hq]; rfl)
    have hlanes : ∀ q, lane q u' = lane q v := by
      intro q
      by_cases hq : Touches q a
      · have := h q
        rw [h4 q hq, lane_cons_pos hq] at this
        exact (List.cons.inj this).2
      · have := h q
        rw [lane_cons_neg hq] at this
        rw [h5 q hq, this]
    rw [h1, circuitOp_cons, circuitOp_cons]
    congr 1
    exact ih u' (fun b hb => hu b (h2 b hb)) (fun b hb => hne b (h2 b hb))
      (fun b hb => hne' b (List.mem_cons_of_mem _ hb)) hlanes

/-- A run of gates on line `q` that comes first on that line can be moved to the front. -/
theorem pull_run (sem : Op β → M) (V : Op β → Prop) (hV : Commuting sem V) (q : Int) (g r : List (Op β))
    (hg : ∀ a ∈ g, a.target = .one q) (u : List (Op β)) (hu : ∀ b ∈ u, V b) (h : lane q u = g ++ r) :
    ∃ u', circuitOp sem u = circuitOp sem (g ++ u') ∧ (∀ b ∈ u', b ∈ u) ∧ u'.length + g.length = u.length ∧
      lane q u' = r ∧ (∀ q', q' ≠ q → lane q' u' = lane q' u) := by
  induction g generalizing u with
  | nil => exact ⟨u, rfl, fun _ h => h, rfl, h, fun _ _ => rfl⟩
  | cons a g ih =>
    have hta : ∀ q', Touches q' a ↔ q' = q := by
      intro q'
      unfold Touches
      rw [hg a (by simp)]
      simp [Target.lines]
    obtain ⟨u1, h1, h2, h3, h4, h5⟩ := pull_front sem V hV a u hu ⟨q, (hta q).2 rfl⟩ (by
      intro q' hq'
      rw [hta] at hq'
      subst hq'
      rw [h]; rfl)
    have hl : lane q u1 = g ++ r := by
      have := h4 q ((hta q).2 rfl)
      rw [h] at this
      exact (List.cons.inj this).2.symm
    obtain ⟨u2, e1, e2, e3, e4, e5⟩ := ih (fun b hb => hg b (List.mem_cons_of_mem _ hb)) u1
      (fun b hb => hu b (h2 b hb)) hl
    refine ⟨u2, ?_, fun b hb => h2 b (e2 b hb), ?_, e4, ?_⟩
    · rw [h1, List.cons_append, circuitOp_cons, circuitOp_cons, e1]
    · rw [List.length_cons]; omega
    · intro q' hq'
      rw [e5 q' hq', h5 q' (fun hc => hq' ((hta q').1 hc))]

/-- `b` stands for the group `g` of gates on line `q` -/
def StandsFor (sem : Op β → M) (q : Int) (g : List (Op β)) (b : Op β) : Prop :=
  match b.target with
  | .many _ => g = [b]
  | .one q' => q' = q ∧ (∀ a ∈ g, a.target = .one q) ∧ sem b = circuitOp sem g

/-- If on every line the second circuit is obtained by replacing groups of gates of the first by a single gate standing
for them, the two circuits are the same operator. -/
theorem circuitOp_eq_of_groups (sem : Op β → M) (V : Op β → Prop) (hV : Commuting sem V) (u v : List (Op β))
    (hu : ∀ b ∈ u, V b) (hne : ∀ b ∈ u, ∃ q, Touches q b) (hne' : ∀ b ∈ v, ∃ q, Touches q b)
    (h : ∀ q, ∃ gs, lane q u = gs.flatten ∧ List.Forall₂ (StandsFor sem q) gs (lane q v)) :
    circuitOp sem u = circuitOp sem v := by
  induction v generalizing u with
  | nil =>
    cases u with
    | nil => rfl
    | cons b u =>
      obtain ⟨q, hq⟩ := hne b (by simp)
      obtain ⟨gs, h1, h2⟩ := h q
      have : gs = [] := by
        cases h2
        rfl
      rw [this, lane_cons_pos hq] at h1
      cases h1
  | cons a v ih =>
    cases ht : a.target with
    | one q =>
      have hta : ∀ q', Touches q' a ↔ q' = q := by
        intro q'
        unfold Touches
        rw [ht]
        simp [Target.lines]
      obtain ⟨gs, h1, h2⟩ := h q
      rw [lane_cons_pos ((hta q).2 rfl)] at h2
      cases h2 with
      | cons hg hrest =>
        rename_i g gs'
        unfold StandsFor at hg
        rw [ht] at hg
        dsimp only at hg
        obtain ⟨-, hg1, hg2⟩ := hg
        obtain ⟨u', e1, e2, e3, e4, e5⟩ := pull_run sem V hV q g gs'.flatten hg1 u hu
          (by rw [h1, List.flatten_cons])
        rw [e1, circuitOp_append, circuitOp_cons, hg2]
        congr 1
        refine ih u' (fun b hb => hu b (e2 b hb)) (fun b hb => hne b (e2 b hb))
          (fun b hb => hne' b (List.mem_cons_of_mem _ hb)) ?_
        intro q'
        by_cases hq : q' = q
        · subst hq
          exact ⟨gs', e4, hrest⟩
        · obtain ⟨gs2, f1, f2⟩ := h q'
          rw [lane_cons_neg (fun hc => hq ((hta q').1 hc))] at f2
          exact ⟨gs2, by rw [e5 q' hq, f1], f2⟩
    | many qs =>
      have key : ∀ q, Touches q a → ∃ gs', lane q u = a :: gs'.flatten ∧
          List.Forall₂ (StandsFor sem q) gs' (lane q v) := by
        intro q hq
        obtain ⟨gs, h1, h2⟩ := h q
        rw [lane_cons_pos hq] at h2
        cases h2 with
        | cons hg hrest =>
          rename_i g gs'
          unfold StandsFor at hg
          rw [ht] at hg
          dsimp only at hg
          subst hg
          exact ⟨gs', by rw [h1]; rfl, hrest⟩
      obtain ⟨u', h1, h2, h3, h4, h5⟩ := pull_front sem V hV a u hu (hne' a (by simp)) (by
        intro q hq
        obtain ⟨gs', e, -⟩ := key q hq
        rw [e]; rfl)
      rw [h1, circuitOp_cons, circuitOp_cons]
      congr 1
      refine ih u' (fun b hb => hu b (h2 b hb)) (fun b hb => hne b (h2 b hb))
          (fun b hb => hne' b (List.mem_cons_of_mem _ hb)) ?_
      intro q
      by_cases hq : Touches q a
      · obtain ⟨gs', e, f⟩ := key q hq
        rw [h4 q hq] at e
        exact ⟨gs', (List.cons.inj e).2, f⟩
      · obtain ⟨gs2, f1, f2⟩ := h q
        rw [lane_cons_neg hq] at f2
        exact ⟨gs2, by rw [h5 q hq, f1], f2⟩

/-- Operators on disjoint lines of a register commute. -/
theorem actsOn_commute {n : Nat} {d : Fin n → Nat} {p q : List Int} {A B : Matrix (Reg d) (Reg d) ℂ}
    (hA : ActsOn d p A) (hB : ActsOn d q B) (h : ∀ x, ¬ (x ∈ p ∧ x ∈ q)) : Commute A B := by
  obtain ⟨a, rfl⟩ := hA
  obtain ⟨b, rfl⟩ := hB
  apply embed_commute
  rw [Finset.disjoint_left]
  intro i hi hj
  unfold lineSet at hi hj
  rw [Finset.mem_filter] at hi hj
  exact h _ ⟨hi.2, hj.2⟩

end Qudits.Spec
