import Verif.Model.Noise
import Mathlib.Data.List.Basic
import Mathlib.Tactic.SplitIfs
import Mathlib.Data.Int.Order.Basic

/- Helper lemmas for the noise model. -/
namespace Qudits
variable {P : Type}

namespace SubspaceNoise

theorem addNoise_ok {s s' : SubspaceNoise P} {a b : Int} {n : Noise P} (h : addNoise s a b n = .ok s') :
    a ≠ b ∧ s' = s ++ [((min a b, max a b), n)] ∧ (min a b, max a b) ∉ PyDict.keys s ∧
      ((min a b < 0) → s = []) ∧ (∀ k ∈ PyDict.keys s, ¬ (k.1 < 0 ∧ k.2 < 0)) := by
  unfold addNoise at h
  have hp : (if b < a then (b, a) else (a, b)) = (min a b, max a b) := by
    split_ifs with hlt
    · rw [min_eq_right hlt.le, max_eq_left hlt.le]
    · rw [min_eq_left (not_lt.1 hlt), max_eq_right (not_lt.1 hlt)]
  rw [hp] at h
  dsimp only at h
  by_cases h1 : min a b = max a b
  · rw [if_pos h1] at h; cases h
  rw [if_neg h1] at h
  by_cases h2 : (min a b, max a b) ∈ PyDict.keys s
  · rw [if_pos h2] at h; cases h
  rw [if_neg h2] at h
  by_cases h3 : (min a b < 0 ∨ max a b < 0) ∧ s.length > 0
  · rw [if_pos h3] at h; cases h
  rw [if_neg h3] at h
  by_cases h4 : ((PyDict.keys s).any fun levs => decide (levs.1 < 0 ∧ levs.2 < 0)) = true
  · rw [if_pos h4] at h; cases h
  rw [if_neg h4] at h
  have h := Except.ok.inj h
  refine ⟨fun e => h1 (by rw [e]; simp), ?_, h2, ?_, ?_⟩
  · rw [← h, PyDict.set_of_not_mem _ _ _ h2]
  · intro hneg
    by_contra hs
    exact h3 ⟨Or.inl hneg, List.length_pos_of_ne_nil hs⟩
  · intro k hk hc
    apply h4
    rw [List.any_eq_true]
    exact ⟨k, hk, by simpa using hc⟩

theorem addNoise_accepts {s : SubspaceNoise P} {a b : Int} {n : Noise P} (h1 : a ≠ b)
    (h2 : (min a b, max a b) ∉ PyDict.keys s) (h3 : min a b < 0 → s = [])
    (h4 : ∀ k ∈ PyDict.keys s, ¬ (k.1 < 0 ∧ k.2 < 0)) :
    addNoise s a b n = .ok (s ++ [((min a b, max a b), n)]) := by
  unfold addNoise
  have hp : (if b < a then (b, a) else (a, b)) = (min a b, max a b) := by
    split_ifs with hlt
    · rw [min_eq_right hlt.le, max_eq_left hlt.le]
    · rw [min_eq_left (not_lt.1 hlt), max_eq_right (not_lt.1 hlt)]
  rw [hp]
  dsimp only
  rw [if_neg (by
    intro h
    rcases lt_or_gt_of_ne h1 with hlt | hlt
    · rw [min_eq_left hlt.le, max_eq_right hlt.le] at h; exact h1 h
    · rw [min_eq_right hlt.le, max_eq_left hlt.le] at h; exact h1 h.symm)]
  rw [if_neg h2, if_neg, if_neg, PyDict.set_of_not_mem _ _ _ h2]
  · rw [List.any_eq_true]
    rintro ⟨k, hk, hc⟩
    exact h4 k hk (by simpa using hc)
  · rintro ⟨h, hl⟩
    have : min a b < 0 := by
      rcases h with h | h
      · exact h
      · exact lt_of_le_of_lt ((min_le_left a b).trans (le_max_left a b)) h
    rw [h3 this] at hl
    simp at hl

/-- every rejection is a ValueError -/
theorem addNoise_error {s : SubspaceNoise P} {a b : Int} {n : Noise P} {e : PyErr}
    (h : addNoise s a b n = .error e) : e = .valueError := by
  unfold addNoise at h
  generalize (if b < a then (b, a) else (a, b)) = p at h
  obtain ⟨x, y⟩ := p
  dsimp only at h
  split_ifs at h <;> exact (Except.error.inj h).symm

theorem addNoises_ok {s s' : SubspaceNoise P} {l : List ((Int × Int) × Noise P)}
    (hord : ∀ k ∈ l, k.1.1 < k.1.2) (h : addNoises s l = (.ok (), s')) : s' = s ++ l := by
  induction l generalizing s with
  | nil => simp only [addNoises, Prod.mk.injEq] at h; rw [← h.2]; simp
  | cons x rest ih =>
    obtain ⟨t, n⟩ := x
    unfold addNoises at h
    cases hx : addNoise s t.1 t.2 n with
    | error e => rw [hx] at h; cases h
    | ok s1 =>
      rw [hx] at h
      have := ih (fun k hk => hord k (List.mem_cons_of_mem _ hk)) h
      obtain ⟨_, e, _⟩ := addNoise_ok hx
      have ht : t.1 < t.2 := hord (t, n) (by simp)
      rw [min_eq_left ht.le, max_eq_right ht.le] at e
      rw [this, e]; simp

end SubspaceNoise

/-! ### generation -/
namespace NoisyFactory

/-- `s'` extends `s` by inserted instructions satisfying `ok` -/
def Ext (ok : NoisyInstr → Prop) (s s' : St) : Prop :=
  ∃ ins, s'.instrs = s.instrs ++ ins ∧ s'.numGates = s.numGates + ins.length ∧ ∀ e ∈ ins, ok e

theorem Ext.refl {ok : NoisyInstr → Prop} (s : St) : Ext ok s s := ⟨[], by simp, rfl, by simp⟩

theorem Ext.trans {ok : NoisyInstr → Prop} {s t u : St} (h1 : Ext ok s t) (h2 : Ext ok t u) : Ext ok s u := by
  obtain ⟨i1, a1, b1, c1⟩ := h1
  obtain ⟨i2, a2, b2, c2⟩ := h2
  refine ⟨i1 ++ i2, by rw [a2, a1, List.append_assoc], by rw [b2, b1, List.length_append, Nat.add_assoc], ?_⟩
  intro e he
  rcases List.mem_append.1 he with h | h
  · exact c1 e h
  · exact c2 e h

theorem Ext.mono {ok ok' : NoisyInstr → Prop} {s t : St} (h : Ext ok s t) (hk : ∀ e, ok e → ok' e) : Ext ok' s t := by
  obtain ⟨i, a, b, c⟩ := h
  exact ⟨i, a, b, fun e he => hk e (c e he)⟩

theorem Ext.emit {ok : NoisyInstr → Prop} (s : St) (e : NoisyInstr) (h : ok e) : Ext ok s (emit s e) :=
  ⟨[e], rfl, rfl, by simpa using h⟩

theorem Ext.draw {ok : NoisyInstr → Prop} (rng : Draws) (k : Nat) (s : St) : Ext ok s (draw rng k s).2 :=
  ⟨[], by simp [NoisyFactory.draw], rfl, by simp⟩

theorem Ext.emitN {ok : NoisyInstr → Prop} (e : NoisyInstr) (h : ok e) (k : Nat) (s : St) : Ext ok s (emitN e k s) := by
  induction k generalizing s with
  | zero => exact Ext.refl s
  | succ k ih => exact (Ext.emit s e h).trans (ih _)

theorem Ext.foldlM {ok : NoisyInstr → Prop} {α : Type} (f : St → α → Except PyErr St) (l : List α)
    (h : ∀ a ∈ l, ∀ s s', f s a = .ok s' → Ext ok s s') (s s' : St) (hr : l.foldlM f s = .ok s') : Ext ok s s' := by
  induction l generalizing s with
  | nil => cases hr; exact Ext.refl _
  | cons a l ih =>
    rw [List.foldlM_cons] at hr
    cases ha : f s a with
    | error e => rw [ha] at hr; cases hr
    | ok t =>
      rw [ha] at hr
      exact (h a (by simp) s t ha).trans (ih (fun b hb => h b (List.mem_cons_of_mem _ hb)) t hr)

theorem Ext.foldl {ok : NoisyInstr → Prop} {α : Type} (f : St → α → St) (l : List α)
    (h : ∀ a ∈ l, ∀ s, Ext ok s (f s a)) (s : St) : Ext ok s (l.foldl f s) := by
  induction l generalizing s with
  | nil => exact Ext.refl _
  | cons a l ih => exact (h a (by simp) s).trans (ih (fun b hb => h b (List.mem_cons_of_mem _ hb)) _)

theorem bindOk {α β : Type} {x : Except PyErr α} {f : α → Except PyErr β} {b : β} (h : x.bind f = .ok b) :
    ∃ a, x = .ok a ∧ f a = .ok b := by
  cases x with
  | error e => cases h
  | ok a => exact ⟨a, rfl, h⟩

theorem depolMath_ext {rng : Draws} {dims : List Nat} {dit : Int} {s s' : St} (h : depolMath rng dims dit s = .ok s') :
    Ext (fun e => e = .x dit ∨ e = .z dit) s s' := by
  unfold depolMath at h
  obtain ⟨dim, _, h⟩ := bindOk h
  split_ifs at h
  have h := Except.ok.inj h
  rw [← h]
  exact ((Ext.draw rng (dim * dim) s).trans (Ext.emitN _ (Or.inl rfl) _ _)).trans (Ext.emitN _ (Or.inr rfl) _ _)

theorem depolSubOne_ext {rng : Draws} {dim : Nat} {dit : Int} {l : Int × Int} {s s' : St}
    (h : depolSubOne rng dim dit s l = .ok s') :
    (0 ≤ l.1 ∧ l.1 < dim ∧ 0 ≤ l.2 ∧ l.2 < dim) ∧
    Ext (fun e => e = .noisex dit l.1 l.2 ∨ e = .noisez dit l.2 ∨ e = .noisey dit l.1 l.2) s s' := by
  unfold depolSubOne at h
  split_ifs at h with hb
  rw [not_or, not_not, not_not] at hb
  refine ⟨⟨hb.1.1, hb.1.2, hb.2.1, hb.2.2⟩, ?_⟩
  have hd := Ext.draw (ok := fun e => e = .noisex dit l.1 l.2 ∨ e = .noisez dit l.2 ∨ e = .noisey dit l.1 l.2) rng 4 s
  generalize draw rng 4 s = p at h hd
  obtain ⟨k, t⟩ := p
  dsimp only at h hd
  split_ifs at h <;> (have h := Except.ok.inj h; rw [← h])
  · exact hd.trans (Ext.emit _ _ (Or.inl rfl))
  · exact hd.trans (Ext.emit _ _ (Or.inr (Or.inl rfl)))
  · exact hd.trans (Ext.emit _ _ (Or.inr (Or.inr rfl)))
  · exact hd

theorem dephaseOne_ext {rng : Draws} {dim : Nat} {dit : Int} {l : Int × Int} {s s' : St}
    (h : dephaseOne rng dim dit s l = .ok s') :
    Ext (fun e => ∃ lev, e = .noisez dit lev ∧ 0 ≤ lev ∧ lev < dim ∧ lev ≠ l.1 ∧ lev ≠ l.2) s s' := by
  unfold dephaseOne at h
  split_ifs at h
  have h := Except.ok.inj h
  rw [← h]
  apply Ext.foldl
  intro lev hlev t
  rw [List.mem_filter, List.mem_map] at hlev
  obtain ⟨⟨k, hk, rfl⟩, hne⟩ := hlev
  rw [List.mem_range] at hk
  have hd := Ext.draw (ok := fun e => ∃ lev, e = NoisyInstr.noisez dit lev ∧ 0 ≤ lev ∧ lev < (dim : Int) ∧ lev ≠ l.1 ∧
    lev ≠ l.2) rng 2 t
  unfold dephaseLevel
  generalize draw rng 2 t = p at hd
  obtain ⟨j, u⟩ := p
  dsimp only at hd ⊢
  split_ifs
  · refine hd.trans (Ext.emit _ _ ⟨k, rfl, by omega, by omega, ?_⟩)
    simpa using hne
  · exact hd

end NoisyFactory
end Qudits
