import Verif.Lemmas.ComplexSweep
import Mathlib.Data.Set.Card
import Mathlib.Algebra.Order.Round
import Mathlib.Data.Rat.Floor
import Mathlib.Data.Real.Basic
import Mathlib.Tactic.NormNum
/-
C76: the table of real numbers behind the edge weights of decision diagrams.
-/
namespace Qudits.DD

section

variable {α : Type} [Field α] [LinearOrder α] [IsStrictOrderedRing α]
variable {P : CParams α} {s : CTable α}

theorem looked_rep {L : Nat → List Nat} {av : List Nat} {v : α} {s' : CTable α} {p : CPtr} (h : Rep P s L av)
    (hl : Looked P s L v (some (p, s'))) : ∃ L' av', Rep P s' L' av' := by
  generalize e : some (p, s') = x at hl
  cases hl with
  | static hp hv => cases e; exact ⟨L, av, h⟩
  | hit ha hv => cases e; exact ⟨L, av, h⟩
  | added hA _ _ _ =>
    cases e
    obtain ⟨L', av', hr, -⟩ := hA.rep
    exact ⟨L', av', hr⟩

theorem valid_entry {L : Nat → List Nat} {av : List Nat} (h : Rep P s L av) {a : Nat} :
    s.Valid P (.entry a) ↔ ∃ k, a ∈ L k := h.stored a

theorem new_rep (hP : P.Fits) : ∃ s, CTable.new P = some s ∧ ∃ L av, Rep P s L av := by
  have hl := (rep_blank P).lookup hP (v := 1 / 2) (by positivity)
  unfold CTable.new
  generalize CTable.lookup P (CTable.blank P) (1 / 2) = x at hl
  cases hl with
  | @static p hp hv =>
    rcases hp with rfl | rfl | rfl <;> exact ⟨_, rfl, _, _, rep_blank P⟩
  | hit ha hv => simp at ha
  | @added e s' hA _ _ _ =>
    obtain ⟨L', av', hr, hm⟩ := hA.rep
    refine ⟨_, rfl, L', av', hr.setRef (hr.used (P.hash (1 / 2)) e ?_) _⟩
    exact (hm _ e).2 (Or.inr ⟨rfl, rfl⟩)

/-- The constructor succeeds. Afterwards 1/2 is found in the table; a stored number, if there is one (there is one unless one of the
three constants is within the tolerance of 1/2), is exactly 1/2 and has one reference, so that no collection removes it. -/
theorem C76_new (hP : P.Fits) : ∃ s, CTable.new P = some s ∧ s.gcLimit = P.gcStart ∧
    (∃ p, s.Valid P p ∧ |s.val P p - 1 / 2| ≤ P.tol) ∧
    (∀ a, s.Stored P a → (s.mem a).value = 1 / 2 ∧ (s.mem a).refCount = 1) ∧
    ((∃ a, s.Stored P a) ↔ P.tol < 1 / 2 ∧ P.tol < |1 / 2 - P.sqrt|) := by
  have hl := (rep_blank P).lookup hP (v := 1 / 2) (by positivity)
  unfold CTable.new
  generalize CTable.lookup P (CTable.blank P) (1 / 2) = x at hl
  cases hl with
  | @static p hp hv =>
    have hno : ∀ a, ¬ (CTable.blank P).Stored P a := by
      intro a h
      obtain ⟨k, hk⟩ := ((rep_blank P).stored a).1 h
      cases hk
    have hst : ¬ (P.tol < 1 / 2 ∧ P.tol < |1 / 2 - P.sqrt|) := by
      rintro ⟨h1, h2⟩
      rcases hp with rfl | rfl | rfl <;> unfold CTable.val at hv
      · rw [zero_sub, abs_neg, abs_of_nonneg (by positivity)] at hv
        exact absurd hv (not_le.2 h1)
      · rw [show (1 : α) - 1 / 2 = 1 / 2 by ring, abs_of_nonneg (by positivity)] at hv
        exact absurd hv (not_le.2 h1)
      · rw [abs_sub_comm] at hv
        exact absurd hv (not_le.2 h2)
    have hval : (CTable.blank P).Valid P p := by rcases hp with rfl | rfl | rfl <;> trivial
    rcases hp with rfl | rfl | rfl <;>
      exact ⟨_, rfl, rfl, ⟨_, hval, hv⟩, fun a h => absurd h (hno a), fun ⟨a, h⟩ => absurd h (hno a), fun h => absurd h hst⟩
  | hit ha hv => simp at ha
  | @added e s' hA h0 h1 h2 =>
    obtain ⟨L', av', hr, hm⟩ := hA.rep
    have hmem : e ∈ L' (P.hash (1 / 2)) := (hm _ e).2 (Or.inr ⟨rfl, rfl⟩)
    have hr' := hr.setRef (hr.used _ e hmem) ((s'.mem e).refCount + 1)
    have hst : ∀ a, _ := fun a => hr'.stored a
    refine ⟨_, rfl, hA.limit, ⟨.entry e, (hst e).2 ⟨_, hmem⟩, ?_⟩, ?_, ?_⟩
    · simp [CTable.val, hA.value, hP.tol_pos.le]
    · intro a h
      obtain ⟨k, hk⟩ := (hst a).1 h
      rcases (hm k a).1 hk with hk | ⟨-, rfl⟩
      · cases hk
      · simp [hA.value, hA.ref]
    · exact ⟨fun _ => ⟨h0, h2⟩, fun _ => ⟨e, (hst e).2 ⟨_, hmem⟩⟩⟩

theorem run_rep (hP : P.Fits) (hs : Run P s) : ∃ L av, Rep P s L av := by
  induction hs with
  | new h =>
    obtain ⟨t, e, hr⟩ := new_rep hP
    rw [e] at h
    cases h
    exact hr
  | lookup _ hv h ih =>
    obtain ⟨L, av, hr⟩ := ih
    have := hr.lookup hP hv
    rw [h] at this
    exact looked_rep hr this
  | @incRef s p _ hp ih =>
    obtain ⟨L, av, hr⟩ := ih
    cases p with
    | entry a =>
      obtain ⟨k, hk⟩ := (valid_entry hr).1 hp
      unfold CTable.incRef
      simp only
      split_ifs
      · exact ⟨L, av, hr⟩
      · exact ⟨L, av, hr.setRef (hr.used k a hk) _⟩
    | _ => exact ⟨L, av, hr⟩
  | @decRef s s' p _ hp h ih =>
    obtain ⟨L, av, hr⟩ := ih
    cases p with
    | entry a =>
      obtain ⟨k, hk⟩ := (valid_entry hr).1 hp
      unfold CTable.decRef at h
      simp only at h
      split_ifs at h
      · cases h; exact ⟨L, av, hr⟩
      · cases h; exact ⟨L, av, hr.setRef (hr.used k a hk) _⟩
    | _ => cases h; exact ⟨L, av, hr⟩
  | @collect s s' force n _ h ih =>
    obtain ⟨L, av, hr⟩ := ih
    obtain ⟨s2, n2, L', av', e, hr', -⟩ := hr.collect force
    rw [h] at e
    cases e
    exact ⟨L', av', hr'⟩
  | clear _ ih =>
    obtain ⟨L, av, hr⟩ := ih
    exact ⟨_, _, hr.clear⟩

/-- Looking a number up ends with a pointer to a number that is at most the tolerance away, and changes neither the numbers that
are in the table nor their counts. -/
theorem C76_lookup (hP : P.Fits) (hs : Run P s) {v : α} (hv : 0 ≤ v) :
    ∃ p s', s.lookup P v = some (p, s') ∧ s'.Valid P p ∧ |s'.val P p - v| ≤ P.tol ∧
      ∀ q, s.Valid P q → s'.Valid P q ∧ s'.val P q = s.val P q ∧
        ∀ a, q = .entry a → (s'.mem a).refCount = (s.mem a).refCount := by
  obtain ⟨L, av, hr⟩ := run_rep hP hs
  have hl := hr.lookup hP hv
  generalize s.lookup P v = x at hl
  cases hl with
  | @static p hp hv =>
    refine ⟨p, s, rfl, ?_, hv, fun q hq => ⟨hq, rfl, fun _ _ => rfl⟩⟩
    rcases hp with rfl | rfl | rfl <;> trivial
  | @hit k a ha hv => exact ⟨_, s, rfl, (valid_entry hr).2 ⟨k, ha⟩, hv, fun q hq => ⟨hq, rfl, fun _ _ => rfl⟩⟩
  | @added e s' hA _ _ _ =>
    obtain ⟨L', av', hr', hm⟩ := hA.rep
    refine ⟨_, s', rfl, (valid_entry hr').2 ⟨P.hash v, (hm _ e).2 (Or.inr ⟨rfl, rfl⟩)⟩, ?_, ?_⟩
    · unfold CTable.val
      simp [hA.value, hP.tol_pos.le]
    · intro q hq
      cases q with
      | entry b =>
        obtain ⟨k, hk⟩ := (valid_entry hr).1 hq
        have hb : b ≠ e := by rintro rfl; exact hA.fresh k hk
        refine ⟨(valid_entry hr').2 ⟨k, (hm k b).2 (Or.inl hk)⟩, (hA.others b hb).1, ?_⟩
        intro a ha
        cases ha
        exact (hA.others b hb).2
      | _ => exact ⟨trivial, rfl, fun a ha => by cases ha⟩

/-- A new entry is made exactly when no number of the table is within the tolerance; then it holds the number that was looked up,
is not referenced, and is the only one that is added. -/
theorem C76_lookup_new (hP : P.Fits) (hs : Run P s) {v : α} (hv : 0 ≤ v) {p : CPtr} {s' : CTable α}
    (h : s.lookup P v = some (p, s')) :
    ((∃ q, s.Valid P q ∧ |s.val P q - v| ≤ P.tol) → s' = s) ∧
    ((∀ q, s.Valid P q → P.tol < |s.val P q - v|) → ∃ a, p = .entry a ∧ ¬ s.Stored P a ∧ (s'.mem a).value = v ∧
      (s'.mem a).refCount = 0 ∧ ∀ b, s'.Stored P b ↔ s.Stored P b ∨ b = a) := by
  obtain ⟨L, av, hr⟩ := run_rep hP hs
  have hl := hr.lookup hP hv
  rw [h] at hl
  generalize e : some (p, s') = x at hl
  cases hl with
  | @static p hp hv =>
    cases e
    refine ⟨fun _ => rfl, fun hn => absurd hv (not_le.2 (hn p ?_))⟩
    rcases hp with rfl | rfl | rfl <;> trivial
  | @hit k a ha hv =>
    cases e
    exact ⟨fun _ => rfl, fun hn => absurd hv (not_le.2 (hn (.entry a) ((valid_entry hr).2 ⟨k, ha⟩)))⟩
  | @added e s' hA h0 h1 h2 =>
    cases e
    obtain ⟨L', av', hr', hm⟩ := hA.rep
    constructor
    · rintro ⟨q, hq, hqv⟩
      exfalso
      cases q with
      | zero =>
        unfold CTable.val at hqv
        rw [zero_sub, abs_neg, abs_of_nonneg hv] at hqv
        exact absurd hqv (not_le.2 h0)
      | one =>
        unfold CTable.val at hqv
        rw [abs_sub_comm] at hqv
        exact absurd hqv (not_le.2 h1)
      | sqrt =>
        unfold CTable.val at hqv
        rw [abs_sub_comm] at hqv
        exact absurd hqv (not_le.2 h2)
      | entry b =>
        obtain ⟨k, hk⟩ := (valid_entry hr).1 hq
        exact absurd hqv (not_le.2 (hA.none k b hk))
    · intro _
      refine ⟨e, rfl, ?_, hA.value, hA.ref, ?_⟩
      · rw [hr.stored]
        rintro ⟨k, hk⟩
        exact hA.fresh k hk
      · intro b
        rw [hr'.stored, hr.stored]
        constructor
        · rintro ⟨k, hk⟩
          rcases (hm k b).1 hk with hk | ⟨-, rfl⟩
          · exact Or.inl ⟨k, hk⟩
          · exact Or.inr rfl
        · rintro (⟨k, hk⟩ | rfl)
          · exact ⟨k, (hm k b).2 (Or.inl hk)⟩
          · exact ⟨P.hash v, (hm _ b).2 (Or.inr ⟨rfl, rfl⟩)⟩

/-- Different pointers stand for numbers that are more than the tolerance apart. -/
theorem C76_apart (hP : P.Fits) (hs : Run P s) {p q : CPtr} (hp : s.Valid P p) (hq : s.Valid P q) (h : p ≠ q) :
    P.tol < |s.val P p - s.val P q| := by
  obtain ⟨L, av, hr⟩ := run_rep hP hs
  have h0 := hP.tol_pos
  have h1 := hP.sqrt_pos
  have h2 := hP.sqrt_lt
  have key : ∀ p q : CPtr, s.Valid P p → s.Valid P q → p ≠ q → P.tol < s.val P p - s.val P q ∨ P.tol < s.val P q - s.val P p := by
    intro p q hp hq h
    cases p with
    | entry a =>
      obtain ⟨k, hk⟩ := (valid_entry hr).1 hp
      cases q with
      | entry b =>
        obtain ⟨j, hj⟩ := (valid_entry hr).1 hq
        have := hr.apart k j a hk b hj (by rintro rfl; exact h rfl)
        unfold CTable.val
        rcases lt_abs.1 this with h | h
        · exact Or.inl h
        · right; linarith
      | zero => left; unfold CTable.val; rw [sub_zero]; exact hr.pos k a hk
      | one =>
        rcases lt_abs.1 (hr.one k a hk) with h | h
        · exact Or.inl h
        · right; unfold CTable.val; linarith
      | sqrt =>
        rcases lt_abs.1 (hr.sqrt k a hk) with h | h
        · exact Or.inl h
        · right; unfold CTable.val; linarith
    | zero =>
      cases q with
      | entry b =>
        obtain ⟨j, hj⟩ := (valid_entry hr).1 hq
        right; unfold CTable.val; rw [sub_zero]; exact hr.pos j b hj
      | zero => exact absurd rfl h
      | one => right; unfold CTable.val; linarith
      | sqrt => right; unfold CTable.val; linarith
    | one =>
      cases q with
      | entry b =>
        obtain ⟨j, hj⟩ := (valid_entry hr).1 hq
        rcases lt_abs.1 (hr.one j b hj) with h | h
        · exact Or.inr h
        · left; unfold CTable.val; linarith
      | zero => left; unfold CTable.val; linarith
      | one => exact absurd rfl h
      | sqrt => left; unfold CTable.val; linarith
    | sqrt =>
      cases q with
      | entry b =>
        obtain ⟨j, hj⟩ := (valid_entry hr).1 hq
        rcases lt_abs.1 (hr.sqrt j b hj) with h | h
        · exact Or.inr h
        · left; unfold CTable.val; linarith
      | zero => left; unfold CTable.val; linarith
      | one => right; unfold CTable.val; linarith
      | sqrt => exact absurd rfl h
  rw [lt_abs]
  rcases key p q hp hq h with h | h
  · exact Or.inl h
  · right; linarith

theorem val_nonneg (hP : P.Fits) (hs : Run P s) {p : CPtr} (hp : s.Valid P p) : 0 ≤ s.val P p := by
  obtain ⟨L, av, hr⟩ := run_rep hP hs
  have h0 := hP.tol_pos
  have h1 := hP.sqrt_pos
  cases p with
  | entry a =>
    obtain ⟨k, hk⟩ := (valid_entry hr).1 hp
    have := hr.pos k a hk
    unfold CTable.val
    linarith
  | zero => exact le_rfl
  | one => exact zero_le_one
  | sqrt => unfold CTable.val; linarith

/-- A number of the table is found where it is, and the table does not change. -/
theorem C76_again (hP : P.Fits) (hs : Run P s) {p : CPtr} (hp : s.Valid P p) : s.lookup P (s.val P p) = some (p, s) := by
  obtain ⟨q, s', e, hq, hv, hkeep⟩ := C76_lookup hP hs (val_nonneg hP hs hp)
  have hs' : s' = s := (C76_lookup_new hP hs (val_nonneg hP hs hp) e).1 ⟨p, hp, by simp [hP.tol_pos.le]⟩
  subst hs'
  by_cases h : q = p
  · rw [e, h]
  · exact absurd hv (not_le.2 (C76_apart hP hs hq hp h))

/-- Garbage collection ends. It does nothing when there is at most one number, or when it is not forced and the limit is not
reached; otherwise it removes exactly the numbers that are not referenced. What stays keeps its number and its count, and what is
returned is how many were removed. -/
theorem C76_collect (hP : P.Fits) (hs : Run P s) (force : Bool) :
    ∃ s' n, s.collect P force = some (s', n) ∧ n + s'.count = s.count ∧
      (∀ a, (s'.mem a).value = (s.mem a).value ∧ (s'.mem a).refCount = (s.mem a).refCount) ∧
      (s.count ≤ 1 ∨ (force = false ∧ s.count < s.gcLimit) → s' = s ∧ n = 0) ∧
      (1 < s.count → force = true ∨ s.gcLimit ≤ s.count → ∀ a, s'.Stored P a ↔ s.Stored P a ∧ (s.mem a).refCount ≠ 0) := by
  obtain ⟨L, av, hr⟩ := run_rep hP hs
  obtain ⟨s', n, L', av', e, hr', hm, hc⟩ := hr.collect force
  refine ⟨s', n, e, ?_, hm, ?_⟩
  · rcases hc with ⟨-, rfl, -, rfl⟩ | ⟨-, -, hc⟩
    · simp
    · exact hc
  · simp only [hr.stored, hr'.stored]
    rcases hc with ⟨hg, rfl, rfl, rfl⟩ | ⟨hg, rfl, hc⟩
    · refine ⟨fun _ => ⟨rfl, rfl⟩, ?_⟩
      intro h1 hf
      rcases hg with ⟨hg, hl⟩ | hg
      · rcases hf with hf | hf
        · rw [hf] at hg; cases hg
        · omega
      · omega
    · refine ⟨fun h => absurd h.symm hg, fun _ _ a => ?_⟩
      unfold referenced
      simp only [List.mem_filter, decide_eq_true_eq]
      exact ⟨fun ⟨k, hk⟩ => ⟨⟨k, hk.1⟩, hk.2⟩, fun ⟨⟨k, hk⟩, h⟩ => ⟨k, hk, h⟩⟩

/-- `count` is the number of numbers in the table. -/
theorem C76_count (hP : P.Fits) (hs : Run P s) : s.count = {a | s.Stored P a}.ncard := by
  obtain ⟨L, av, hr⟩ := run_rep hP hs
  have hset : {a | s.Stored P a} = ((Finset.range (P.mask + 1)).biUnion fun k => (L k).toFinset : Finset Nat) := by
    ext a
    simp only [Set.mem_setOf_eq, hr.stored, Finset.coe_biUnion, Set.mem_iUnion, Finset.mem_coe, Finset.mem_range,
      List.mem_toFinset, exists_prop]
    exact ⟨fun ⟨k, hk⟩ => ⟨k, Nat.lt_succ_of_le (hr.key_le hk), hk⟩, fun ⟨k, _, hk⟩ => ⟨k, hk⟩⟩
  rw [hset, Set.ncard_coe_finset, Finset.card_biUnion, hr.count]
  · refine Finset.sum_congr rfl fun k _ => ?_
    rw [List.toFinset_card_of_nodup (hr.nodup k)]
  · intro j _ k _ hjk
    rw [Function.onFun, Finset.disjoint_left]
    intro a ha hb
    exact hjk (hr.other (List.mem_toFinset.1 ha) (List.mem_toFinset.1 hb))

/-- Raising a count: it stays at its largest value. No number, no other count and no bucket changes. -/
theorem C76_incRef (a : Nat) :
    ((s.incRef P (.entry a)).mem a).refCount =
      (if (s.mem a).refCount = P.maxRef then P.maxRef else (s.mem a).refCount + 1) ∧
    (∀ b, b ≠ a → (s.incRef P (.entry a)).mem b = s.mem b) ∧ (∀ p, (s.incRef P (.entry a)).val P p = s.val P p) ∧
    ∀ b, (s.incRef P (.entry a)).Stored P b ↔ s.Stored P b := by
  unfold CTable.incRef
  simp only
  split_ifs with h
  · exact ⟨h, fun _ _ => rfl, fun _ => rfl, fun _ => Iff.rfl⟩
  · refine ⟨by simp, fun b hb => by simp [hb], ?_, ?_⟩
    · intro p
      cases p with
      | entry b =>
        by_cases hb : b = a
        · subst hb; simp [CTable.val]
        · simp [CTable.val, hb]
      | _ => rfl
    · intro b
      unfold CTable.Stored
      have := nexts_same s.mem a { s.mem a with refCount := (s.mem a).refCount + 1 } rfl
      unfold nexts at this
      simp only [this]

/-- Lowering a count: it stays at its largest value and throws at 0. No number, no other count and no bucket changes. -/
theorem C76_decRef (a : Nat) :
    (s.decRef P (.entry a) = none ↔ (s.mem a).refCount = 0 ∧ P.maxRef ≠ 0) ∧
    ∀ s', s.decRef P (.entry a) = some s' →
      (s'.mem a).refCount = (if (s.mem a).refCount = P.maxRef then P.maxRef else (s.mem a).refCount - 1) ∧
      (∀ b, b ≠ a → s'.mem b = s.mem b) ∧ (∀ p, s'.val P p = s.val P p) ∧ ∀ b, s'.Stored P b ↔ s.Stored P b := by
  unfold CTable.decRef
  simp only
  by_cases h1 : (s.mem a).refCount = P.maxRef
  · rw [if_pos h1]
    refine ⟨by simp [h1], ?_⟩
    intro s' hs
    cases hs
    rw [if_pos h1]
    exact ⟨h1, fun _ _ => rfl, fun _ => rfl, fun _ => Iff.rfl⟩
  · rw [if_neg h1, if_neg h1]
    by_cases h2 : (s.mem a).refCount = 0
    · rw [if_pos h2]
      refine ⟨⟨fun _ => ⟨h2, fun h3 => h1 (h2.trans h3.symm)⟩, fun _ => rfl⟩, fun s' hs => by cases hs⟩
    · rw [if_neg h2]
      refine ⟨by simp [h2], ?_⟩
      intro s' hs
      cases hs
      refine ⟨by simp, fun b hb => by simp [hb], ?_, ?_⟩
      · intro p
        cases p with
        | entry b =>
          by_cases hb : b = a
          · subst hb; simp [CTable.val]
          · simp [CTable.val, hb]
        | _ => rfl
      · intro b
        unfold CTable.Stored
        have := nexts_same s.mem a { s.mem a with refCount := (s.mem a).refCount - 1 } rfl
        unfold nexts at this
        simp only [this]

/-- Clearing leaves no number in the table, not even the 1/2 that the constructor put there, no reference, and the limit that a new
table has. -/
theorem C76_clear (s : CTable α) : (s.clear P).count = 0 ∧ (s.clear P).gcLimit = P.gcStart ∧
    (∀ a, ((s.clear P).mem a).refCount = 0) ∧ ∀ a, ¬ (s.clear P).Stored P a := by
  refine ⟨rfl, rfl, fun _ => rfl, ?_⟩
  rintro a ⟨k, -, h⟩
  cases h

end

/-- The constants of the package, with exact rational numbers: `TOLERANCE = 2^-52 * 1024`, `NBUCKET = 65537`, `SQRT2_2` to 18
digits (Definitions.hpp 76-77), rounding to a nearest integer, counts of (at least) 32 bits. -/
def shippedParams : CParams ℚ :=
  ⟨1 / 2 ^ 42, 707106781186547524 / 10 ^ 18, 65536, fun x => round x, 2 ^ 32 - 1, 65536⟩

theorem round_mono {x y : ℚ} (h : x ≤ y) : round x ≤ round y := by
  rw [round_eq, round_eq]
  exact Int.floor_mono (by linarith)

theorem shipped_fits : shippedParams.Fits where
  tol_pos := by norm_num [shippedParams]
  tol_small := by norm_num [shippedParams]
  sqrt_pos := by norm_num [shippedParams]
  sqrt_lt := by norm_num [shippedParams]
  mono h := round_mono h
  close x := by rw [abs_sub_comm]; exact abs_sub_round x

/-- Five buckets and a tolerance of 1/100. -/
def fewBuckets : CParams ℚ := ⟨1 / 100, 7 / 10, 4, fun x => round x, 10, 2⟩

theorem few_fits : fewBuckets.Fits where
  tol_pos := by norm_num [fewBuckets]
  tol_small := by norm_num [fewBuckets]
  sqrt_pos := by norm_num [fewBuckets]
  sqrt_lt := by norm_num [fewBuckets]
  mono h := round_mono h
  close x := by rw [abs_sub_comm]; exact abs_sub_round x

/-- A table, three numbers looked up one after the other: the pointers and the numbers they stand for. -/
def threeLooks (P : CParams ℚ) (u v w : ℚ) : Option ((CPtr × CPtr × CPtr) × (ℚ × ℚ × ℚ)) := do
  let s ← CTable.new P
  let (p, s) ← s.lookup P u
  let (q, s) ← s.lookup P v
  let (r, s) ← s.lookup P w
  some ((p, q, r), (s.val P p, s.val P q, s.val P r))

theorem threeLooks_run {P : CParams ℚ} (hP : P.Fits) {u v w : ℚ} (hu : 0 ≤ u) (hv : 0 ≤ v) (hw : 0 ≤ w) {p q r : CPtr}
    {x y z : ℚ} (h : threeLooks P u v w = some ((p, q, r), (x, y, z))) :
    ∃ s0 s1 s2 s3, Run P s0 ∧ Run P s1 ∧ Run P s2 ∧ s0.lookup P u = some (p, s1) ∧ s1.lookup P v = some (q, s2) ∧
      s2.lookup P w = some (r, s3) ∧ s2.Valid P p ∧ s2.Valid P q ∧ s3.val P p = x ∧ s3.val P q = y ∧ s3.val P r = z ∧
      s2.val P p = x ∧ s2.val P q = y := by
  unfold threeLooks at h
  simp only [Option.bind_eq_bind, Option.bind_eq_some_iff, Prod.exists, Option.some.injEq, Prod.mk.injEq] at h
  obtain ⟨s0, h0, p', s1, h1, q', s2, h2, r', s3, h3, ⟨rfl, rfl, rfl⟩, hx, hy, hz⟩ := h
  have r0 := Run.new h0
  have r1 := Run.lookup r0 hu h1
  have r2 := Run.lookup r1 hv h2
  obtain ⟨_, _, e1, v1, -, -⟩ := C76_lookup hP r0 hu
  rw [h1] at e1
  cases e1
  obtain ⟨_, _, e2, v2, -, k2⟩ := C76_lookup hP r1 hv
  rw [h2] at e2
  cases e2
  obtain ⟨_, _, e3, -, -, k3⟩ := C76_lookup hP r2 hw
  rw [h3] at e3
  cases e3
  refine ⟨s0, s1, s2, s3, r0, r1, r2, h1, h2, h3, (k2 p' v1).1, v2, hx, hy, hz, ?_, ?_⟩
  · rw [← (k3 p' (k2 p' v1).1).2.1]; exact hx
  · rw [← (k3 q' v2).2.1]; exact hy

/-- The same number, looked up twice with another one between, can be given two different pointers. -/
theorem C76_stable_violated :
    ∃ (P : CParams ℚ) (s s1 s2 s3 : CTable ℚ) (v w : ℚ) (p q r : CPtr), P.Fits ∧ Run P s ∧ 0 ≤ v ∧ 0 ≤ w ∧
      s.lookup P v = some (p, s1) ∧ s1.lookup P w = some (q, s2) ∧ s2.lookup P v = some (r, s3) ∧ p ≠ r := by
  -- 0.509 is taken for the 0.5 of the constructor; after 0.5105 has been added it is taken for that one
  have h : (threeLooks fewBuckets (509 / 1000) (5105 / 10000) (509 / 1000)).map (fun x => x.1) =
      some (.entry 0, .entry 1, .entry 1) := by decide +kernel
  obtain ⟨⟨⟨p, q, r⟩, x, y, z⟩, h1, h2⟩ := Option.map_eq_some_iff.1 h
  obtain ⟨s0, s1, s2, s3, r0, -, -, e1, e2, e3, -⟩ := threeLooks_run few_fits (by norm_num) (by norm_num) (by norm_num) h1
  simp only [Prod.mk.injEq] at h2
  obtain ⟨rfl, rfl, rfl⟩ := h2
  exact ⟨fewBuckets, s0, s1, s2, s3, _, _, _, _, _, few_fits, r0, by norm_num, by norm_num, e1, e2, e3, by decide⟩

/-- At the border of two buckets a number can be taken for one that is further away than another number of the table. -/
theorem C76_nearest_violated :
    ∃ (P : CParams ℚ) (s s' : CTable ℚ) (v : ℚ) (p q : CPtr), P.Fits ∧ Run P s ∧ 0 ≤ v ∧ s.lookup P v = some (p, s') ∧
      s.Valid P q ∧ |s.val P q - v| < |s'.val P p - v| := by
  have h : threeLooks fewBuckets (3755 / 10000) (387 / 1000) (384 / 1000) =
      some ((.entry 1, .entry 2, .entry 1), (3755 / 10000, 387 / 1000, 3755 / 10000)) := by decide +kernel
  obtain ⟨s0, s1, s2, s3, -, -, r2, -, -, e3, -, v2, -, -, hz, -, hq⟩ :=
    threeLooks_run few_fits (by norm_num) (by norm_num) (by norm_num) h
  refine ⟨fewBuckets, s2, s3, 384 / 1000, _, _, few_fits, r2, by norm_num, e3, v2, ?_⟩
  rw [hz, hq]
  norm_num [abs_lt, lt_abs]

/-- A table of the package after three lookups: 0.3 and 0.6 are new, the third number is one of them. -/
example : ∃ s2 s3 : CTable ℚ, Run shippedParams s2 ∧ s2.lookup shippedParams (3 / 10 + 1 / 2 ^ 43) = some (.entry 1, s3) ∧
    s2.Valid shippedParams (.entry 1) ∧ s2.Valid shippedParams (.entry 2) ∧
    s2.val shippedParams (.entry 1) = 3 / 10 ∧ s2.val shippedParams (.entry 2) = 6 / 10 := by
  have h : threeLooks shippedParams (3 / 10) (6 / 10) (3 / 10 + 1 / 2 ^ 43) =
      some ((.entry 1, .entry 2, .entry 1), (3 / 10, 6 / 10, 3 / 10)) := by decide +kernel
  obtain ⟨s0, s1, s2, s3, -, -, r2, -, -, e3, v1, v2, -, -, -, hp, hq⟩ :=
    threeLooks_run shipped_fits (by norm_num) (by norm_num) (by norm_num) h
  exact ⟨s2, s3, r2, e3, v1, v2, hp, hq⟩

/-- A collection: the constructor's 1/2 is referenced and stays, 1/4 is removed. -/
example : ((CTable.new fewBuckets).bind fun s => (s.lookup fewBuckets (1 / 4)).bind fun x =>
    (x.2.collect fewBuckets true).map fun y => (y.2, y.1.count, y.1.table 2, y.1.table 1)) =
    some (1, 1, some 0, none) := by decide +kernel

end Qudits.DD
