import Verif.Lemmas.AdaRoute
import Verif.Lemmas.Block
import Verif.Spec.PriceSpec
/-! Prices of the pulses which bring two levels together. -/
namespace Qudits
open LGraph Spec Matrix LocalQR

variable {d : Nat} {g : LGraph} {lp : Equiv.Perm (Fin d)}

theorem Spec.Device.irnode_iff (h : Device d g lp) (i : Fin d) :
    ∃ b, g.isIrnode (i : Nat) = .ok b ∧ (b = true ↔ Remote g (i : Nat)) := by
  obtain ⟨L, h1, h2⟩ := h.levelNodes "r"
  unfold LGraph.isIrnode
  rw [h1]
  refine ⟨_, rfl, ?_⟩
  rw [decide_eq_true_iff, h2]
  constructor
  · rintro ⟨j, hj, hv⟩
    rw [hj]; exact hv
  · intro hv
    exact ⟨i, rfl, hv⟩

theorem Spec.Device.distance_lt (h : Device d g lp) {sp : PathFinder} (hsp : FindsPaths sp) (i j : Fin d) :
    ∃ k : Int, g.distanceNodes sp (i : Nat) (j : Nat) = .ok k ∧ 0 ≤ k ∧ k + 1 ≤ d := by
  obtain ⟨p, h1, h2⟩ := hsp g _ _ h.wf (h.mem i) (h.conn i j)
  unfold distanceNodes
  rw [h1]
  obtain ⟨l, rfl⟩ : ∃ l, p = nm i :: l := by
    cases p with
    | nil => have := h2.first; simp at this
    | cons x l => have := h2.first; simp at this; exact ⟨l, by rw [this]; rfl⟩
  have hmem := chain_mem h.wf l (nm i) (h.mem i) h2.steps
  have hle : (nm i :: l).length ≤ (Spec.names g).length := (List.Nodup.subperm h2.nodup hmem).length_le
  rw [h.names.length_eq] at hle
  simp only [List.length_map, List.length_range] at hle
  refine ⟨_, rfl, ?_, ?_⟩
  · simp
  · simp only [List.length_cons] at hle ⊢
    push_cast
    omega

theorem Spec.Device.price (h : Device d g lp) {sp : PathFinder} (hsp : FindsPaths sp) (r : RGate) (i j : Fin d) (hi : r.origA = (i : Nat))
    (hj : r.origB = (j : Nat)) : ∃ x, rotationCost sp r g = .ok x ∧ thetaCost r.par.theta ≤ x ∧ x ≤ d * thetaCost r.par.theta ∧
      (Plain d g → x = thetaCost r.par.theta) := by
  obtain ⟨b1, e1, q1⟩ := h.irnode_iff i
  obtain ⟨b2, e2, q2⟩ := h.irnode_iff j
  obtain ⟨f, e3⟩ := h.fstInode
  obtain ⟨k1, e4, p4, u4⟩ := h.distance_lt hsp f i
  obtain ⟨k2, e5, p5, _⟩ := h.distance_lt hsp f j
  have h0 := thetaCost_nonneg r.par.theta
  have hd : (1 : ℝ) ≤ d := by
    have : 1 ≤ d := by have := i.2; omega
    exact_mod_cast this
  unfold rotationCost
  rw [e3, hi, hj, e1, e2]
  simp only [bind, Except.bind, pure, Except.pure]
  rw [e4, e5]
  simp only []
  by_cases hb : (b1 || b2) = true
  · rw [if_pos hb]
    have hm := le_min p4 p5
    have hm' := min_le_left k1 k2
    have l1 : (1 : ℝ) ≤ ((min k1 k2 + 1 : Int) : ℝ) := by
      have : (1 : Int) ≤ min k1 k2 + 1 := by omega
      exact_mod_cast this
    have l2 : ((min k1 k2 + 1 : Int) : ℝ) ≤ d := by
      have : min k1 k2 + 1 ≤ (d : Int) := by omega
      exact_mod_cast this
    refine ⟨_, rfl, by nlinarith, by nlinarith, fun hp => ?_⟩
    rcases Bool.or_eq_true_iff.1 hb with hb | hb
    · exact absurd (q1.1 hb) (hp i)
    · exact absurd (q2.1 hb) (hp j)
  · rw [if_neg hb]
    exact ⟨_, rfl, le_refl _, by nlinarith, fun _ => rfl⟩

theorem Spec.Device.ongateAny (h : Device d g lp) (r : RGate) (i j : Fin d) (hi : r.par.levA = ((lp i : Fin d) : Nat))
    (hj : r.par.levB = ((lp j : Fin d) : Nat)) (hlt : lp i < lp j) (ht : regulateTheta r.par.theta = r.par.theta) :
    ∃ r', graphRuleOngate d r g = .ok r' ∧ r'.par.levA = r.par.levA ∧ r'.par.levB = r.par.levB ∧ r'.par.theta = r.par.theta := by
  rcases h.hasPhases with ⟨_, h2⟩ | ⟨h1, _⟩
  · obtain ⟨x, hx⟩ := h2 i
    obtain ⟨y, hy⟩ := h2 j
    obtain ⟨r', e, hp⟩ := h.ongate' r i j hi hj hlt x y hx hy
    exact ⟨r', e, by rw [hp], by rw [hp], by rw [hp]; exact ht⟩
  · refine ⟨r, ?_, rfl, rfl, rfl⟩
    unfold graphRuleOngate
    rw [h1]
    rfl

theorem routeLoop_price {sp : PathFinder} (hsp : FindsPaths sp) : ∀ (i : Nat) (front : List (Fin d)) (hd tgt : Fin d)
    (post : List (Fin d)) (g : LGraph) (lp : Equiv.Perm (Fin d)) (cost : ℝ) (pulses : List RGate) (s : ℝ),
    (hd :: front).length = i + 1 → (hd :: front).Nodup → tgt ∉ hd :: front → Device d g lp →
    LastIs pulses (lp ((hd :: front).getLast (by simp))) (lp tgt) s →
    ∃ k new g' lp', routeLoop sp d i ((hd :: front ++ tgt :: post).map nm) g cost pulses = .ok (cost + k, pulses ++ new, g') ∧
      Device d g' lp' ∧ new.length = i ∧ (∀ r ∈ new, |r.par.theta| = Real.pi) ∧ i * thetaCost Real.pi ≤ k ∧ k ≤ i * (d * thetaCost Real.pi) ∧
      (Plain d g → k = i * thetaCost Real.pi ∧ Plain d g') := by
  intro i
  induction i with
  | zero =>
    intro front hd tgt post g lp cost pulses s h1 h2 h3 h4 h7
    have : front = [] := by simpa using h1
    subst this
    exact ⟨0, [], g, lp, by simp [routeLoop], h4, rfl, by simp, by simp, by simp, fun hp => ⟨by simp, hp⟩⟩
  | succ i ih =>
    intro front hd tgt post g lp cost pulses s h1 h2 h3 h4 h7
    obtain ⟨fr, x, hfr⟩ : ∃ fr x, front = fr ++ [x] := by
      rcases List.eq_nil_or_concat front with h | ⟨fr, x, h⟩
      · subst h; simp at h1
      · exact ⟨fr, x, by simpa using h⟩
    subst hfr
    have hlen : (hd :: fr).length = i + 1 := by simpa using h1
    have hxt : x ≠ tgt := fun h => h3 (by simp [h])
    have hx : x ∉ hd :: fr := by
      have : (hd :: fr ++ [x]).Nodup := h2
      rw [List.nodup_append] at this
      intro h
      exact this.2.2 x h x (by simp) rfl
    have hlast : (hd :: (fr ++ [x])).getLast (by simp) = x := by simp
    rw [hlast] at h7
    have hne : lp x ≠ lp tgt := fun h => hxt (lp.injective h)
    obtain ⟨r1, e1, l1, p1, _, t1⟩ := chain_ok pulses ⟨((lp x : Fin d) : Nat), ((lp tgt : Fin d) : Nat), ⟨((min (lp x) (lp tgt) : Fin d) : Nat),
      ((max (lp x) (lp tgt) : Fin d) : Nat), regulateTheta Real.pi, -Real.pi / 2⟩⟩ (lp x) (lp tgt) s hne h7 ⟨rfl, rfl⟩
    have t1 := t1 regulate_pi
    have hreg : regulateTheta r1.par.theta = r1.par.theta := by rw [t1]; exact regulate_sign h7.sign
    obtain ⟨r2, e2, pA, pB, pT⟩ : ∃ r', graphRuleOngate d r1 g = .ok r' ∧ r'.par.levA = r1.par.levA ∧ r'.par.levB = r1.par.levB ∧
        r'.par.theta = r1.par.theta := by
      rcases lt_or_gt_of_ne hne with k | k
      · refine h4.ongateAny r1 x tgt ?_ ?_ k hreg
        · rw [l1.a_eq, min_eq_left k.le]
        · rw [l1.b_eq, max_eq_right k.le]
      · refine h4.ongateAny r1 tgt x ?_ ?_ k hreg
        · rw [l1.a_eq, min_eq_right k.le]
        · rw [l1.b_eq, max_eq_left k.le]
    have e3 := newRot_ok x tgt hxt r2.par.theta (r2.par.phi / 2)
    obtain ⟨k3, e4, c4, c4', c4''⟩ := h4.price hsp (⟨(x : Nat), (tgt : Nat), ⟨((min x tgt : Fin d) : Nat), ((max x tgt : Fin d) : Nat),
      regulateTheta r2.par.theta, r2.par.phi / 2⟩⟩ : RGate) x tgt rfl rfl
    obtain ⟨g1, e5, d5, ren, _⟩ := h4.swap tgt x
    have hplain : Plain d g → Plain d g1 := by
      intro hp n
      unfold Remote
      rw [ren.value, swap_cast]
      exact hp _
    have v1 : (lp * Equiv.swap tgt x) tgt = lp x := by simp
    have v2 : ∀ n ∈ hd :: fr, (lp * Equiv.swap tgt x) n = lp n := by
      intro n hn
      rw [Equiv.Perm.mul_apply, Equiv.swap_apply_of_ne_of_ne]
      · rintro rfl; exact h3 (by rcases List.mem_cons.1 hn with h | h <;> simp [h])
      · rintro rfl; exact hx hn
    have hn2 : (hd :: fr).Nodup := by
      have : (hd :: fr ++ [x]).Nodup := h2
      exact (List.nodup_append.1 this).1
    have hn3 : tgt ∉ hd :: fr := fun h => h3 (by rcases List.mem_cons.1 h with h | h <;> simp [h])
    obtain ⟨k, new, g', lp', i1, i2, i5, i6, i9, i10, i11⟩ := ih fr hd tgt (x :: post) g1 (lp * Equiv.swap tgt x) (cost + k3)
      (pulses ++ [r2]) (dir (lp x) (lp tgt)) hlen hn2 hn3 d5 (by
        right
        rw [v1, v2 _ (List.getLast_mem _)]
        refine ⟨r2, lp tgt, by simp, hne.symm, ?_, ⟨by rw [pA, l1.a_eq], by rw [pB, l1.b_eq]⟩, rfl⟩
        intro h
        exact hn3 ((lp.injective h) ▸ List.getLast_mem _))
    have habs : |r2.par.theta| = Real.pi := by
      rw [pT, t1]
      rcases h7.sign with h | h <;> rw [h]
      · rw [one_mul, abs_of_pos Real.pi_pos]
      · rw [neg_one_mul, abs_neg, abs_of_pos Real.pi_pos]
    have hc : thetaCost (regulateTheta r2.par.theta) = thetaCost Real.pi := by
      rw [pT, t1, regulate_sign h7.sign]
      rcases h7.sign with h | h <;> rw [h]
      · rw [one_mul]
      · unfold thetaCost; simp
    simp only [hc] at c4 c4' c4''
    refine ⟨k3 + k, r2 :: new, g', lp', ?_, i2, by simp [i5], ?_, ?_, ?_, ?_⟩
    · rw [routeLoop]
      have a1 : nodeAt ((hd :: (fr ++ [x]) ++ tgt :: post).map nm) (i + 1) = .ok (nm x) := by
        have := nodeAt_front (hd :: fr) x (tgt :: post) (i + 1) hlen
        simpa using this
      have a2 : nodeAt ((hd :: (fr ++ [x]) ++ tgt :: post).map nm) (i + 2) = .ok (nm tgt) := by
        have := nodeAt_front (hd :: fr ++ [x]) tgt post (i + 2) (by simpa using hlen)
        simpa using this
      have a3 : swapElements ((hd :: (fr ++ [x]) ++ tgt :: post).map nm) (i + 2) (i + 1) =
          .ok ((hd :: fr ++ tgt :: x :: post).map nm) := by
        have := swapElements_front (hd :: fr) x tgt post (i + 1) hlen
        simpa using this
      rw [a1, a2, a3]
      simp only [bind, Except.bind, nm]
      rw [h4.lpmap, h4.lpmap]
      simp only []
      rw [newRot_ok _ _ hne]
      simp only []
      rw [e1]
      simp only []
      rw [e2]
      simp only []
      rw [e3]
      simp only []
      rw [e4]
      simp only []
      rw [e5]
      simp only []
      have := i1
      simp only [List.append_assoc, List.singleton_append, add_assoc] at this ⊢
      exact this
    · intro r hr
      rcases List.mem_cons.1 hr with rfl | hr
      · exact habs
      · exact i6 r hr
    · push_cast
      linarith
    · push_cast
      linarith
    · intro hp
      obtain ⟨j1, j2⟩ := i11 (hplain hp)
      refine ⟨?_, j2⟩
      rw [c4'' hp, j1]
      push_cast
      ring

end Qudits
