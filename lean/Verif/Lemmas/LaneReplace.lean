import Verif.Model.LaneReplace
import Verif.Lemmas.Lanes
/-
Lemmas on replacing a stretch of a lane.
-/
namespace Qudits.Lanes
open Spec
variable {β : Type}

theorem removeEntry_ok (A B : List (LaneItem β)) (t : LaneItem β) (h : ∀ a ∈ A, a.2.oid ≠ t.2.oid) :
    removeEntry (A ++ t :: B) t = .ok (A ++ B) := by
  unfold removeEntry
  rw [if_pos (by simp), List.eraseP_append_right _ (by
    intro a ha
    have := h a ha
    simp [this]), List.eraseP_cons_of_pos (by simp)]

theorem removeAll_ok (A B : List (LaneItem β)) : ∀ (M : List (LaneItem β)),
    (∀ a ∈ A, ∀ m ∈ M, a.2.oid ≠ m.2.oid) → M.foldlM removeEntry (A ++ (M ++ B)) = .ok (A ++ B)
  | [], _ => rfl
  | m :: M, h => by
    rw [List.foldlM_cons, List.cons_append, removeEntry_ok A (M ++ B) m fun a ha => h a ha m (by simp)]
    exact removeAll_ok A B M fun a ha x hx => h a ha x (by simp [hx])

theorem split_lane {γ : Type} (L : List γ) (s e : Nat) (h : s ≤ e) :
    L = L.take s ++ ((L.take (e + 1)).drop s ++ L.drop (e + 1)) := by
  conv_lhs => rw [← List.take_append_drop (e + 1) L]
  rw [← List.append_assoc]
  congr 1
  conv_lhs => rw [← List.take_append_drop s (L.take (e + 1))]
  rw [List.take_take, min_eq_left (by omega)]

theorem take_min {γ : Type} (L : List γ) (k : Nat) : L.take (min k L.length) = L.take k := by
  rcases Nat.le_total k L.length with h | h
  · rw [min_eq_left h]
  · rw [min_eq_right h, List.take_length, List.take_of_length_le h]

theorem replaceGates_ok (d : PyDict Int (List (LaneItem β))) (q : Int) (s e : Nat) (g : Op β) (hse : s ≤ e)
    (hs : s < ((PyDict.get? d q).getD []).length)
    (hnd : (((PyDict.get? d q).getD []).map fun t => t.2.oid).Nodup) :
    ∃ A t M B, (PyDict.get? d q).getD [] = A ++ (t :: M ++ B) ∧ A = ((PyDict.get? d q).getD []).take s ∧
      t :: M = (((PyDict.get? d q).getD []).take (e + 1)).drop s ∧ B = ((PyDict.get? d q).getD []).drop (e + 1) ∧
      replaceGates d q s e g = .ok (PyDict.set d q (A ++ (t.1, g) :: B)) := by
  cases hq : PyDict.get? d q with
  | none => rw [hq] at hs; simp at hs
  | some L =>
    rw [hq] at hs hnd
    simp only [Option.getD_some] at hs hnd ⊢
    have hsplit := split_lane L s e hse
    have hlen : (L.take s).length = s := by rw [List.length_take]; omega
    have hne : (L.take (e + 1)).drop s ≠ [] := by
      intro h
      have := congrArg List.length h
      rw [List.length_drop, List.length_take, List.length_nil] at this
      omega
    obtain ⟨t, M, hM⟩ := List.exists_cons_of_ne_nil hne
    have hget : L[s]? = some t := by
      rw [hsplit, List.getElem?_append_right (by omega), hlen, Nat.sub_self, hM]
      rfl
    refine ⟨L.take s, t, M, L.drop (e + 1), ?_, rfl, hM.symm, rfl, ?_⟩
    · rw [← hM]
      exact hsplit
    · unfold replaceGates
      rw [hq]
      dsimp only
      rw [hget, take_min]
      have hrm : ((L.take (e + 1)).drop s).foldlM removeEntry L = .ok (L.take s ++ L.drop (e + 1)) := by
        conv_lhs => rw [hsplit]
        have h1 : ∀ a ∈ L.take s, ∀ m ∈ (L.take (e + 1)).drop s, a.2.oid ≠ m.2.oid := by
          intro a ha m hm he
          rw [hsplit, List.map_append, List.nodup_append] at hnd
          exact hnd.2.2 _ (List.mem_map_of_mem ha) _ (List.mem_map_of_mem (List.mem_append_left _ hm)) he
        have h2 := removeAll_ok (L.take s) (L.drop (e + 1)) _ h1
        rw [← hsplit] at h2 ⊢
        exact h2
      dsimp only
      rw [hrm]
      show Except.ok _ = _
      have h3 : (L.take s ++ L.drop (e + 1)).take s = L.take s := by
        rw [List.take_append_of_le_length (by omega), List.take_take, min_self]
      have h4 : (L.take s ++ L.drop (e + 1)).drop s = L.drop (e + 1) := by
        conv_lhs => rw [← hlen]
        rw [hlen, List.drop_append, hlen, Nat.sub_self, List.drop_zero, List.drop_of_length_le (by omega), List.nil_append]
      rw [h3, h4]

theorem good_replaced {d : PyDict Int (List (LaneItem β))} (hd : Good d) {q : Int} {A M B : List (LaneItem β)} {t : LaneItem β}
    (hL : (PyDict.get? d q).getD [] = A ++ (t :: M ++ B)) {g : Op β} (hg : g.target = .one q)
    (hM : ∀ x ∈ t :: M, x.2.target = .one q) (hfresh : ∀ q', ∀ x ∈ (PyDict.get? d q').getD [], x.2.oid ≠ g.oid) :
    Good (PyDict.set d q (A ++ (t.1, g) :: B)) := by
  have hself : (PyDict.get? (PyDict.set d q (A ++ (t.1, g) :: B)) q).getD [] = A ++ (t.1, g) :: B := by
    rw [PyDict.get?_set_self]; rfl
  have hne : ∀ q', q' ≠ q → (PyDict.get? (PyDict.set d q (A ++ (t.1, g) :: B)) q').getD [] = (PyDict.get? d q').getD [] := by
    intro q' h
    rw [PyDict.get?_set_ne _ _ _ _ (Ne.symm h)]
  have hgq : ∀ q', Touches q' g ↔ q' = q := by
    intro q'
    unfold Touches
    rw [hg]
    simp [Target.lines]
  have hitem : ∀ q', ∀ x ∈ (PyDict.get? (PyDict.set d q (A ++ (t.1, g) :: B)) q').getD [],
      (q' = q ∧ x = (t.1, g)) ∨ x ∈ (PyDict.get? d q').getD [] := by
    intro q' x hx
    by_cases h : q' = q
    · subst h
      rw [hself] at hx
      rw [hL]
      simp only [List.mem_append, List.mem_cons] at hx ⊢
      tauto
    · rw [hne q' h] at hx
      exact Or.inr hx
  refine ⟨PyDict.keys_nodup_set _ _ _ hd.keys, ?_, ?_, ?_, ?_⟩
  · intro q' x hx
    rcases hitem q' x hx with ⟨rfl, rfl⟩ | hx
    · exact (hgq _).2 rfl
    · exact hd.touches q' x hx
  · intro q' x hx q'' ht
    rcases hitem q' x hx with ⟨rfl, rfl⟩ | hx'
    · rw [(hgq q'').1 ht]
      exact hx
    · by_cases h : q'' = q
      · subst h
        by_cases h' : q' = q''
        · subst h'
          exact hx
        · have h1 := hd.everywhere q' x hx' q'' ht
          rw [hL] at h1
          rw [hself]
          have h2 : x ∉ t :: M := by
            intro hm
            have h3 := hd.touches q' x hx'
            unfold Touches at h3
            rw [hM x hm] at h3
            simp [Target.lines] at h3
            exact h' h3
          simp only [List.mem_append, List.mem_cons] at h1 h2 ⊢
          tauto
      · rw [hne q'' h]
        exact hd.everywhere q' x hx' q'' ht
  · intro q1 q2 x hx y hy he
    rcases hitem q1 x hx with ⟨rfl, rfl⟩ | hx' <;> rcases hitem q2 y hy with ⟨rfl, rfl⟩ | hy'
    · rfl
    · exact absurd he.symm (hfresh _ y hy')
    · exact absurd he (hfresh _ x hx')
    · exact hd.ids q1 q2 x hx' y hy' he
  · intro q'
    by_cases h : q' = q
    · subst h
      rw [hself]
      have ho := hd.order q'
      have hf : ∀ x ∈ A ++ (t :: M ++ B), x.2.oid ≠ g.oid := by
        intro x hx
        rw [← hL] at hx
        exact hfresh _ x hx
      rw [hL, List.pairwise_append] at ho
      obtain ⟨o1, o2, o3⟩ := ho
      rw [List.pairwise_append] at o2
      obtain ⟨-, o4, o5⟩ := o2
      rw [List.pairwise_append, List.pairwise_cons]
      refine ⟨o1, ⟨?_, o4⟩, ?_⟩
      · intro b hb
        obtain ⟨-, h2⟩ := o5 t (by simp) b hb
        exact ⟨(hf b (by simp [hb])).symm, h2⟩
      · intro a ha b hb
        rcases List.mem_cons.1 hb with rfl | hb
        · obtain ⟨-, h2⟩ := o3 a ha t (by simp)
          refine ⟨hf a (by simp [ha]), ?_⟩
          rcases h2 with h2 | ⟨h2, _⟩
          · exact Or.inl h2
          · exact Or.inr ⟨h2, q', hg⟩
        · exact o3 a ha b (by simp [hb])
    · rw [hne q' h]
      exact hd.order q'

end Qudits.Lanes
