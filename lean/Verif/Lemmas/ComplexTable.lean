import Verif.Spec.ComplexSpec
import Mathlib.Algebra.BigOperators.Group.Finset.Basic
import Mathlib.Algebra.BigOperators.Group.Finset.Piecewise
import Mathlib.Algebra.Order.Ring.Abs
import Mathlib.Data.List.Nodup
import Mathlib.Tactic.Linarith
import Mathlib.Tactic.Ring
/-
Lemmas for the table of real numbers.
-/
namespace Qudits.DD

/-- The pointer is the first of a chain of entries that ends with a null pointer. -/
def Linked (next : Nat → Option Nat) : Option Nat → List Nat → Prop
  | p, [] => p = none
  | p, a :: l => p = some a ∧ Linked next (next a) l

theorem Linked.head {next : Nat → Option Nat} {p : Option Nat} {l : List Nat} (h : Linked next p l) : p = l.head? := by
  cases l with
  | nil => exact h
  | cons a l => exact h.1

theorem Linked.congr {f g : Nat → Option Nat} {l : List Nat} :
    ∀ {p : Option Nat}, Linked f p l → (∀ a ∈ l, f a = g a) → Linked g p l := by
  induction l with
  | nil => intro p h _; exact h
  | cons a l ih =>
    intro p h e
    refine ⟨h.1, ?_⟩
    rw [← e a (by simp)]
    exact ih h.2 fun b hb => e b (by simp [hb])

theorem linked_reaches {next : Nat → Option Nat} {l : List Nat} :
    ∀ {p : Option Nat}, Linked next p l → ∀ a, Reaches next p a ↔ a ∈ l := by
  induction l with
  | nil =>
    intro p h a
    have : p = none := h
    subst this
    constructor
    · intro h; cases h
    · intro h; simp at h
  | cons b l ih =>
    intro p h a
    obtain ⟨rfl, h2⟩ := h
    constructor
    · intro h
      cases h with
      | here => simp
      | there h => exact List.mem_cons_of_mem _ ((ih h2 a).1 h)
    · intro h
      rcases List.mem_cons.1 h with rfl | h
      · exact .here _
      · exact .there ((ih h2 a).2 h)

theorem Linked.tail_of {next : Nat → Option Nat} {pre post : List Nat} :
    ∀ {p : Option Nat}, Linked next p (pre ++ post) → ∃ q, Linked next q post := by
  induction pre with
  | nil => intro p h; exact ⟨p, h⟩
  | cons a pre ih => intro p h; exact ih h.2

theorem Linked.next_last {next : Nat → Option Nat} {pre post : List Nat} {a : Nat} :
    ∀ {p : Option Nat}, Linked next p (pre ++ a :: post) → next a = post.head? := by
  induction pre with
  | nil => intro p h; exact h.2.head
  | cons b pre ih => intro p h; exact ih h.2

/-- Cutting a chain behind an entry and continuing it elsewhere. -/
theorem Linked.splice {next : Nat → Option Nat} {pre post l : List Nat} {a : Nat} {q : Option Nat} :
    ∀ {p : Option Nat}, Linked next p (pre ++ a :: post) → a ∉ pre → a ∉ l → (∀ b ∈ pre, b ∉ l) →
      Linked next q l → Linked (Function.update next a q) p (pre ++ a :: l) := by
  induction pre with
  | nil =>
    intro p h _ hl _ hq
    refine ⟨h.1, ?_⟩
    rw [Function.update_self]
    refine hq.congr fun b hb => ?_
    rw [Function.update_of_ne (by rintro rfl; exact hl hb)]
  | cons b pre ih =>
    intro p h hp hl hd hq
    refine ⟨h.1, ?_⟩
    rw [Function.update_of_ne (by rintro rfl; simp at hp)]
    exact ih h.2 (by simp at hp; exact hp.2) hl (fun c hc => hd c (by simp [hc])) hq

section

variable {α : Type} [Field α] [LinearOrder α]

/-- The `next` pointers of a memory. -/
def nexts (mem : Nat → CEntry α) : Nat → Option Nat := fun a => (mem a).next

theorem nexts_update (mem : Nat → CEntry α) (a : Nat) (e : CEntry α) :
    nexts (Function.update mem a e) = Function.update (nexts mem) a e.next := by
  funext b
  unfold nexts
  by_cases h : b = a
  · subst h; simp
  · simp [Function.update_of_ne h]

theorem nexts_same (mem : Nat → CEntry α) (a : Nat) (e : CEntry α) (h : e.next = (mem a).next) :
    nexts (Function.update mem a e) = nexts mem := by
  rw [nexts_update, h]
  exact Function.update_eq_self a (nexts mem)

variable [IsStrictOrderedRing α]

theorem CParams.Fits.hash_mono {P : CParams α} (hP : P.Fits) {x y : α} (h : x ≤ y) : P.hash x ≤ P.hash y := by
  have h1 := hP.mono (mul_le_mul_of_nonneg_right h (Nat.cast_nonneg (α := α) P.mask))
  unfold CParams.hash
  omega

theorem CParams.Fits.hash_step {P : CParams α} (hP : P.Fits) (v : α) : P.hash (v + P.tol) ≤ P.hash (v - P.tol) + 1 := by
  have h1 := abs_le.1 (hP.close ((v + P.tol) * P.mask))
  have h2 := abs_le.1 (hP.close ((v - P.tol) * P.mask))
  have h3 := hP.tol_small
  have h4 : ((P.nearest ((v + P.tol) * P.mask) : Int) : α) < ((P.nearest ((v - P.tol) * P.mask) + 2 : Int) : α) := by
    push_cast
    have e : (v + P.tol) * (P.mask : α) = (v - P.tol) * P.mask + 2 * P.tol * P.mask := by ring
    linarith [h1.2, h2.1]
  have h5 := Int.cast_lt.1 h4
  unfold CParams.hash
  omega

theorem CParams.hash_le (P : CParams α) (v : α) : P.hash v ≤ P.mask := min_le_right _ _

theorem CParams.Fits.lt_of_hash {P : CParams α} (hP : P.Fits) {x y : α} (h : P.hash x < P.hash y) : x < y := by
  by_contra hc
  exact absurd (hP.hash_mono (not_lt.1 hc)) (not_le.2 h)

/-- The state of a table: the entries of every bucket and the free entries. -/
structure Rep (P : CParams α) (s : CTable α) (L : Nat → List Nat) (av : List Nat) : Prop where
  bucket : ∀ k, Linked (nexts s.mem) (s.table k) (L k)
  tail : ∀ k, s.tail k = (L k).getLast?
  free : Linked (nexts s.mem) s.available av
  key : ∀ k, ∀ a ∈ L k, P.hash (s.mem a).value = k
  sorted : ∀ k, (L k).Pairwise fun a b => (s.mem a).value < (s.mem b).value
  apart : ∀ j k, ∀ a ∈ L j, ∀ b ∈ L k, a ≠ b → P.tol < |(s.mem a).value - (s.mem b).value|
  pos : ∀ k, ∀ a ∈ L k, P.tol < (s.mem a).value
  one : ∀ k, ∀ a ∈ L k, P.tol < |(s.mem a).value - 1|
  sqrt : ∀ k, ∀ a ∈ L k, P.tol < |(s.mem a).value - P.sqrt|
  av_nodup : av.Nodup
  av_disj : ∀ a ∈ av, ∀ k, a ∉ L k
  used : ∀ k, ∀ a ∈ L k, a < s.fresh
  av_used : ∀ a ∈ av, a < s.fresh
  clean : ∀ a, s.fresh ≤ a → (s.mem a).refCount = 0
  count : s.count = ∑ k ∈ Finset.range (P.mask + 1), (L k).length

variable {P : CParams α} {s : CTable α} {L : Nat → List Nat} {av : List Nat}

theorem Rep.nodup (h : Rep P s L av) (k : Nat) : (L k).Nodup :=
  (h.sorted k).imp fun hlt => by rintro rfl; exact lt_irrefl _ hlt

theorem Rep.other (h : Rep P s L av) {j k a : Nat} (ha : a ∈ L j) (hb : a ∈ L k) : j = k :=
  (h.key j a ha).symm.trans (h.key k a hb)

theorem Rep.key_le (h : Rep P s L av) {k a : Nat} (ha : a ∈ L k) : k ≤ P.mask := by
  rw [← h.key k a ha]; exact P.hash_le _

theorem Rep.length_le (h : Rep P s L av) (k : Nat) : (L k).length ≤ s.fresh := by
  have h1 : (L k) ⊆ List.range s.fresh := fun a ha => List.mem_range.2 (h.used k a ha)
  have h2 := ((h.nodup k).subperm h1).length_le
  simpa using h2

theorem Rep.stored (h : Rep P s L av) (a : Nat) : s.Stored P a ↔ ∃ k, a ∈ L k := by
  constructor
  · rintro ⟨k, -, hr⟩
    exact ⟨k, (linked_reaches (h.bucket k) a).1 hr⟩
  · rintro ⟨k, hk⟩
    exact ⟨k, h.key_le hk, (linked_reaches (h.bucket k) a).2 hk⟩

theorem rep_blank (P : CParams α) : Rep P (CTable.blank P) (fun _ => []) [] where
  bucket _ := rfl
  tail _ := rfl
  free := rfl
  key _ a h := by simp at h
  sorted _ := List.Pairwise.nil
  apart _ _ a h := by simp at h
  pos _ a h := by simp at h
  one _ a h := by simp at h
  sqrt _ a h := by simp at h
  av_nodup := List.nodup_nil
  av_disj a h := by simp at h
  used _ a h := by simp at h
  av_used a h := by simp at h
  clean _ _ := rfl
  count := by simp [CTable.blank]

theorem Rep.clear (h : Rep P s L av) : Rep P (s.clear P) (fun _ => []) [] where
  bucket _ := rfl
  tail _ := rfl
  free := rfl
  key _ a h := by simp at h
  sorted _ := List.Pairwise.nil
  apart _ _ a h := by simp at h
  pos _ a h := by simp at h
  one _ a h := by simp at h
  sqrt _ a h := by simp at h
  av_nodup := List.nodup_nil
  av_disj a h := by simp at h
  used _ a h := by simp at h
  av_used a h := by simp at h
  clean _ _ := rfl
  count := by simp [CTable.clear]

/-- Changing the reference count of an entry that was handed out. -/
theorem Rep.setRef (h : Rep P s L av) {a : Nat} (ha : a < s.fresh) (n : Nat) :
    Rep P { s with mem := Function.update s.mem a { s.mem a with refCount := n } } L av := by
  have hn : nexts (Function.update s.mem a { s.mem a with refCount := n }) = nexts s.mem := nexts_same _ _ _ rfl
  have hv : ∀ b, (Function.update s.mem a { s.mem a with refCount := n } b).value = (s.mem b).value := by
    intro b
    by_cases hb : b = a
    · subst hb; simp
    · rw [Function.update_of_ne hb]
  constructor
  · intro k; simp only [hn]; exact h.bucket k
  · exact h.tail
  · simp only [hn]; exact h.free
  · simp only [hv]; exact h.key
  · simp only [hv]; exact h.sorted
  · simp only [hv]; exact h.apart
  · simp only [hv]; exact h.pos
  · simp only [hv]; exact h.one
  · simp only [hv]; exact h.sqrt
  · exact h.av_nodup
  · exact h.av_disj
  · exact h.used
  · exact h.av_used
  · intro b hb
    have : b ≠ a := by
      rintro rfl
      exact absurd hb (not_le.2 ha)
    simp only [Function.update_of_ne this]
    exact h.clean b hb
  · exact h.count

/-- What `getEntry` and the assignment of the value leave. -/
theorem Rep.getEntry (h : Rep P s L av) (v : α) :
    ∃ av', Rep P ((s.getEntry.2).setValue s.getEntry.1 v) L av' ∧ (∀ k, s.getEntry.1 ∉ L k) ∧ s.getEntry.1 ∉ av' ∧
      s.getEntry.1 < s.getEntry.2.fresh ∧ s.fresh ≤ s.getEntry.2.fresh ∧ s.getEntry.2.gcLimit = s.gcLimit ∧
      (((s.getEntry.2).setValue s.getEntry.1 v).mem s.getEntry.1).value = v ∧
      (((s.getEntry.2).setValue s.getEntry.1 v).mem s.getEntry.1).refCount = 0 ∧
      s.getEntry.2.table = s.table ∧ s.getEntry.2.tail = s.tail ∧
      ∀ b, b ≠ s.getEntry.1 → ((s.getEntry.2).setValue s.getEntry.1 v).mem b = s.mem b := by
  unfold CTable.getEntry CTable.setValue
  cases hav : s.available with
  | none =>
    have hfresh : ∀ k, s.fresh ∉ L k := fun k hk => lt_irrefl _ (h.used k _ hk)
    have e0 : av = [] := by
      have := h.free.head
      rw [hav] at this
      cases av with
      | nil => rfl
      | cons a l => simp at this
    subst e0
    have hn : nexts (Function.update s.mem s.fresh { s.mem s.fresh with value := v }) = nexts s.mem := nexts_same _ _ _ rfl
    have hv : ∀ k, ∀ b ∈ L k, (Function.update s.mem s.fresh { s.mem s.fresh with value := v } b) = s.mem b := by
      intro k b hb
      rw [Function.update_of_ne (by rintro rfl; exact hfresh k hb)]
    refine ⟨[], ?_, hfresh, by simp, by simp, by simp, rfl, by simp, ?_, rfl, rfl, ?_⟩
    · constructor
      · intro k; simp only [hn]; exact h.bucket k
      · exact h.tail
      · simp only [hn]; rfl
      · intro k a ha; simp only [hv k a ha]; exact h.key k a ha
      · intro k
        refine (h.sorted k).imp_of_mem ?_
        intro a b ha hb hab
        simp only [hv k a ha, hv k b hb]; exact hab
      · intro j k a ha b hb hab
        simp only [hv j a ha, hv k b hb]; exact h.apart j k a ha b hb hab
      · intro k a ha; simp only [hv k a ha]; exact h.pos k a ha
      · intro k a ha; simp only [hv k a ha]; exact h.one k a ha
      · intro k a ha; simp only [hv k a ha]; exact h.sqrt k a ha
      · simp
      · simp
      · intro k a ha; exact Nat.lt_succ_of_lt (h.used k a ha)
      · simp
      · intro b hb
        have hb' : s.fresh + 1 ≤ b := hb
        simp only [Function.update_of_ne (show b ≠ s.fresh by omega)]
        exact h.clean b (by omega)
      · exact h.count
    · simp [h.clean s.fresh le_rfl]
    · intro b hb
      simp only [Function.update_of_ne hb]
  | some e =>
    obtain ⟨av', rfl⟩ : ∃ l, av = e :: l := by
      have := h.free.head
      rw [hav] at this
      cases av with
      | nil => simp at this
      | cons a l =>
        simp at this
        exact ⟨l, by rw [this]⟩
    have hfresh : ∀ k, e ∉ L k := h.av_disj e (by simp)
    have hnd := List.nodup_cons.1 h.av_nodup
    have hn : nexts (Function.update (Function.update s.mem e { s.mem e with refCount := 0 }) e
        { Function.update s.mem e { s.mem e with refCount := 0 } e with value := v }) = nexts s.mem := by
      exact (nexts_same _ e _ (by simp)).trans (nexts_same _ e _ rfl)
    have hne : ∀ b, b ≠ e → (Function.update (Function.update s.mem e { s.mem e with refCount := 0 }) e
        { Function.update s.mem e { s.mem e with refCount := 0 } e with value := v } b) = s.mem b := by
      intro b hb
      rw [Function.update_of_ne hb, Function.update_of_ne hb]
    have hv : ∀ k, ∀ b ∈ L k, (Function.update (Function.update s.mem e { s.mem e with refCount := 0 }) e
        { Function.update s.mem e { s.mem e with refCount := 0 } e with value := v } b) = s.mem b := by
      intro k b hb
      exact hne b (by rintro rfl; exact hfresh k hb)
    have he : e < s.fresh := h.av_used e (by simp)
    refine ⟨av', ?_, hfresh, hnd.1, he, le_rfl, rfl, by simp, by simp, rfl, rfl, hne⟩
    constructor
    · intro k; simp only [hn]; exact h.bucket k
    · exact h.tail
    · simp only [hn]; exact h.free.2
    · intro k a ha; simp only [hv k a ha]; exact h.key k a ha
    · intro k
      refine (h.sorted k).imp_of_mem ?_
      intro a b ha hb hab
      simp only [hv k a ha, hv k b hb]; exact hab
    · intro j k a ha b hb hab
      simp only [hv j a ha, hv k b hb]; exact h.apart j k a ha b hb hab
    · intro k a ha; simp only [hv k a ha]; exact h.pos k a ha
    · intro k a ha; simp only [hv k a ha]; exact h.one k a ha
    · intro k a ha; simp only [hv k a ha]; exact h.sqrt k a ha
    · exact hnd.2
    · intro a ha; exact h.av_disj a (by simp [ha])
    · exact h.used
    · intro a ha; exact h.av_used a (by simp [ha])
    · intro b hb
      have : b ≠ e := by
        rintro rfl
        exact absurd hb (not_le.2 he)
      simp only [hne b this]
      exact h.clean b hb
    · exact h.count

theorem link_mem (s : CTable α) (key e : Nat) (prev curr : Option Nat) (b : Nat) :
    ((s.link key e prev curr).mem b).value = (s.mem b).value ∧ ((s.link key e prev curr).mem b).refCount = (s.mem b).refCount ∧
      (s.link key e prev curr).fresh = s.fresh ∧ (s.link key e prev curr).gcLimit = s.gcLimit := by
  have hset : ∀ (t : CTable α) (x : Nat) (n : Option Nat),
      (((t.setNext x n).mem b).value = (t.mem b).value ∧ ((t.setNext x n).mem b).refCount = (t.mem b).refCount) := by
    intro t x n
    unfold CTable.setNext
    by_cases hb : b = x
    · subst hb; simp
    · simp [Function.update_of_ne hb]
  have hs2 : ∀ (t : CTable α) (x : Nat) (n : Option Nat), (t.setNext x n).fresh = t.fresh ∧ (t.setNext x n).gcLimit = t.gcLimit :=
    fun t x n => ⟨rfl, rfl⟩
  unfold CTable.link
  cases prev <;> cases curr <;> simp [hset, hs2]

theorem link_rest (s : CTable α) (key e : Nat) (prev curr : Option Nat) :
    nexts (s.link key e prev curr).mem =
        Function.update (match prev with | none => nexts s.mem | some p => Function.update (nexts s.mem) p (some e)) e curr ∧
      (s.link key e prev curr).table = (match prev with | none => Function.update s.table key (some e) | some _ => s.table) ∧
      (s.link key e prev curr).tail = (match curr with | none => Function.update s.tail key (some e) | some _ => s.tail) ∧
      (s.link key e prev curr).available = s.available ∧ (s.link key e prev curr).count = s.count + 1 := by
  unfold CTable.link CTable.setNext
  cases prev <;> cases curr <;> simp [nexts_update]

/-- Putting an entry into its place in its bucket. -/
theorem Rep.link (h : Rep P s L av) {key e : Nat} {pre post : List Nat} {v : α} (he : ∀ k, e ∉ L k) (hav : e ∉ av)
    (hlt : e < s.fresh) (hval : (s.mem e).value = v) (hkey : P.hash v = key) (hL : L key = pre ++ post)
    (hpre : ∀ a ∈ pre, (s.mem a).value < v) (hpost : ∀ a ∈ post, v < (s.mem a).value)
    (hap : ∀ k, ∀ a ∈ L k, P.tol < |(s.mem a).value - v|) (h0 : P.tol < v) (h1 : P.tol < |v - 1|) (h2 : P.tol < |v - P.sqrt|) :
    Rep P (s.link key e pre.getLast? post.head?) (Function.update L key (pre ++ e :: post)) av := by
  have hv : ∀ b, ((s.link key e pre.getLast? post.head?).mem b).value = (s.mem b).value := fun b => (link_mem s key e _ _ b).1
  obtain ⟨hn, ht, htl, ha, hc⟩ := link_rest s key e pre.getLast? post.head?
  have hfr := (link_mem s key e pre.getLast? post.head? 0).2.2.1
  have hmem : ∀ k a, a ∈ Function.update L key (pre ++ e :: post) k ↔ a ∈ L k ∨ (k = key ∧ a = e) := by
    intro k a
    by_cases hk : k = key
    · subst hk
      simp [hL]
      tauto
    · simp [hk]
  have hepre : e ∉ pre := fun hc => he key (by rw [hL]; simp [hc])
  have hepost : e ∉ post := fun hc => he key (by rw [hL]; simp [hc])
  have hndk := h.nodup key
  rw [hL] at hndk
  have hbk : Linked (nexts s.mem) (s.table key) (pre ++ post) := hL ▸ h.bucket key
  -- chains that touch neither the new entry nor the one before it
  have hkeep : ∀ {p : Option Nat} {l : List Nat}, Linked (nexts s.mem) p l → e ∉ l → (∀ q, pre.getLast? = some q → q ∉ l) →
      Linked (nexts (s.link key e pre.getLast? post.head?).mem) p l := by
    intro p l hl hel hq
    refine hl.congr fun b hb => ?_
    rw [hn, Function.update_of_ne (by rintro rfl; exact hel hb)]
    cases hpl : pre.getLast? with
    | none => rfl
    | some q =>
      simp only
      rw [Function.update_of_ne (by rintro rfl; exact hq b hpl hb)]
  constructor
  · intro k
    by_cases hk : k = key
    · subst hk
      rw [Function.update_self]
      rcases List.eq_nil_or_concat pre with rfl | ⟨pre', q, rfl⟩
      · simp only [List.nil_append] at hbk ⊢
        rw [ht, hn]
        simp only [List.getLast?_nil, Function.update_self]
        refine ⟨rfl, ?_⟩
        rw [Function.update_self]
        have := hbk.head
        rw [← this]
        refine hbk.congr fun b hb => ?_
        rw [Function.update_of_ne (by rintro rfl; exact hepost hb)]
      · have hq : (pre' ++ [q]).getLast? = some q := by simp
        rw [ht, hn]
        simp only [List.concat_eq_append, hq] at hbk hepre hndk ⊢
        have hqe : q ≠ e := by rintro rfl; simp at hepre
        rw [Function.update_comm hqe]
        rw [List.append_assoc]
        have hbk' : Linked (nexts s.mem) (s.table k) (pre' ++ q :: post) := by simpa using hbk
        have hnd' : (pre' ++ q :: post).Nodup := by simpa using hndk
        have hd := List.nodup_append.1 hnd'
        have hqc := List.nodup_cons.1 hd.2.1
        refine Linked.splice (post := post) ?_ ?_ ?_ ?_ ?_
        · refine hbk'.congr fun b hb => ?_
          rw [Function.update_of_ne]
          rintro rfl
          simp only [List.mem_append, List.mem_cons] at hb
          rcases hb with hb | hb | hb
          · simp [hb] at hepre
          · exact hqe hb.symm
          · exact hepost hb
        · intro hc
          exact hd.2.2 q hc q (by simp) rfl
        · intro hc
          rcases List.mem_cons.1 hc with hc | hc
          · exact hqe hc
          · exact hqc.1 hc
        · intro b hb
          intro hc
          rcases List.mem_cons.1 hc with rfl | hc
          · simp [hb] at hepre
          · exact hd.2.2 b hb b (by simp [hc]) rfl
        · refine ⟨rfl, ?_⟩
          rw [Function.update_self]
          obtain ⟨z, hz⟩ := hbk'.tail_of
          have hz2 := hz.2
          have := hz2.head
          rw [← this]
          refine hz2.congr fun b hb => ?_
          rw [Function.update_of_ne (by rintro rfl; exact hepost hb)]
    · rw [Function.update_of_ne hk]
      have htk : (s.link key e pre.getLast? post.head?).table k = s.table k := by
        rw [ht]
        cases pre.getLast? with
        | none => simp only; rw [Function.update_of_ne hk]
        | some q => rfl
      rw [htk]
      refine hkeep (h.bucket k) (he k) ?_
      intro q hq hqk
      have : q ∈ L key := by
        rw [hL]
        exact List.mem_append_left _ (List.mem_of_getLast? hq)
      exact hk (h.other hqk this)
  · intro k
    rw [htl]
    by_cases hk : k = key
    · subst hk
      rw [Function.update_self]
      cases post with
      | nil => simp
      | cons b post =>
        simp only [List.head?_cons]
        rw [h.tail k, hL]
        simp [List.getLast?_append, List.getLast?_cons_cons]
    · rw [Function.update_of_ne hk]
      cases post.head? with
      | none => simp only; rw [Function.update_of_ne hk]; exact h.tail k
      | some b => exact h.tail k
  · rw [ha]
    refine hkeep h.free hav ?_
    intro q hq hqa
    refine h.av_disj q hqa key ?_
    rw [hL]
    exact List.mem_append_left _ (List.mem_of_getLast? hq)
  · intro k a hm
    rw [hv]
    rcases (hmem k a).1 hm with hm | ⟨rfl, rfl⟩
    · exact h.key k a hm
    · rw [hval]; exact hkey
  · intro k
    simp only [hv]
    by_cases hk : k = key
    · subst hk
      rw [Function.update_self]
      have := h.sorted k
      rw [hL] at this
      obtain ⟨p1, p2, p3⟩ := List.pairwise_append.1 this
      refine List.pairwise_append.2 ⟨p1, List.pairwise_cons.2 ⟨?_, p2⟩, ?_⟩
      · intro b hb; rw [hval]; exact hpost b hb
      · intro a haa b hb
        rcases List.mem_cons.1 hb with rfl | hb
        · rw [hval]; exact hpre a haa
        · exact p3 a haa b hb
    · rw [Function.update_of_ne hk]; exact h.sorted k
  · intro j k a hma b hmb hab
    simp only [hv]
    rcases (hmem j a).1 hma with ha' | ⟨-, ha'⟩ <;> rcases (hmem k b).1 hmb with hb' | ⟨-, hb'⟩
    · exact h.apart j k a ha' b hb' hab
    · rw [hb', hval]; exact hap j a ha'
    · rw [ha', hval, abs_sub_comm]; exact hap k b hb'
    · exact absurd (ha'.trans hb'.symm) hab
  · intro k a hm
    rw [hv]
    rcases (hmem k a).1 hm with hm | ⟨rfl, rfl⟩
    · exact h.pos k a hm
    · rw [hval]; exact h0
  · intro k a hm
    rw [hv]
    rcases (hmem k a).1 hm with hm | ⟨rfl, rfl⟩
    · exact h.one k a hm
    · rw [hval]; exact h1
  · intro k a hm
    rw [hv]
    rcases (hmem k a).1 hm with hm | ⟨rfl, rfl⟩
    · exact h.sqrt k a hm
    · rw [hval]; exact h2
  · exact h.av_nodup
  · intro a haa k hm
    rcases (hmem k a).1 hm with hm | ⟨rfl, rfl⟩
    · exact h.av_disj a haa k hm
    · exact hav haa
  · intro k a hm
    rw [hfr]
    rcases (hmem k a).1 hm with hm | ⟨rfl, rfl⟩
    · exact h.used k a hm
    · exact hlt
  · intro a haa; rw [hfr]; exact h.av_used a haa
  · intro a haa
    rw [hfr] at haa
    rw [(link_mem s key e _ _ a).2.1]
    exact h.clean a haa
  · rw [hc, h.count]
    have hk : key ∈ Finset.range (P.mask + 1) := by
      rw [← hkey]; exact Finset.mem_range.2 (Nat.lt_succ_of_le (P.hash_le v))
    have hlen : ∀ k, (Function.update L key (pre ++ e :: post) k).length = (L k).length + if k = key then 1 else 0 := by
      intro k
      by_cases hk : k = key
      · subst hk; simp [hL]; omega
      · simp [hk]
    simp only [hlen, Finset.sum_add_distrib]
    rw [Finset.sum_ite_eq', if_pos hk]

/-- How the loop of `findOrInsert` ends. -/
theorem cscan_ok {tol v : α} {mem : Nat → CEntry α} :
    ∀ (fuel : Nat) (pre post : List Nat) (p : Option Nat), Linked (nexts mem) p post → post.length ≤ fuel →
      (pre ++ post).Pairwise (fun a b => (mem a).value < (mem b).value) → (∀ a ∈ pre, (mem a).value < v - tol) →
      (∃ a ∈ post, cscan tol mem v fuel pre.getLast? p = some (.hit a) ∧ |(mem a).value - v| ≤ tol) ∨
      (∃ pre' post', pre ++ post = pre' ++ post' ∧ cscan tol mem v fuel pre.getLast? p = some (.gap pre'.getLast? post'.head?) ∧
        (∀ a ∈ pre', (mem a).value < v - tol) ∧ ∀ a ∈ post', v + tol < (mem a).value) := by
  intro fuel
  induction fuel with
  | zero =>
    intro pre post p hl hf _ hpre
    have : post = [] := List.length_eq_zero_iff.1 (by omega)
    subst this
    have : p = none := hl
    subst this
    exact Or.inr ⟨pre, [], rfl, rfl, hpre, by simp⟩
  | succ k ih =>
    intro pre post p hl hf hs hpre
    cases post with
    | nil =>
      have : p = none := hl
      subst this
      exact Or.inr ⟨pre, [], rfl, rfl, hpre, by simp⟩
    | cons c post =>
      obtain ⟨rfl, hl2⟩ := hl
      have hs2 := (List.pairwise_append.1 hs).2.1
      have hs3 := List.pairwise_cons.1 hs2
      by_cases h1 : (mem c).value ≤ v + tol
      · by_cases h2 : |(mem c).value - v| ≤ tol
        · left
          have hh := hl2.head
          unfold nexts at hh
          cases post with
          | nil =>
            refine ⟨c, by simp, ?_, h2⟩
            unfold cscan
            simp only [h1, h2, if_true, hh, List.head?_nil]
          | cons n post =>
            by_cases h3 : (mem n).value ≤ v + tol ∧ |(mem n).value - v| < |(mem c).value - v|
            · refine ⟨n, by simp, ?_, h3.2.le.trans h2⟩
              unfold cscan
              simp only [h1, h2, if_true, hh, List.head?_cons, if_pos h3]
            · refine ⟨c, by simp, ?_, h2⟩
              unfold cscan
              simp only [h1, h2, if_true, hh, List.head?_cons, if_neg h3]
        · have hc : (mem c).value < v - tol := by
            rw [abs_le, not_and_or] at h2
            rcases h2 with h2 | h2 <;> linarith
          have := ih (pre ++ [c]) post _ hl2 (by simp at hf; omega) (by simpa using hs) (by
            intro a ha
            rcases List.mem_append.1 ha with ha | ha
            · exact hpre a ha
            · rw [List.mem_singleton.1 ha]; exact hc)
          have hstep : cscan tol mem v (k + 1) pre.getLast? (some c) = cscan tol mem v k (pre ++ [c]).getLast? (mem c).next := by
            rw [show (pre ++ [c]).getLast? = some c by simp]
            conv_lhs => unfold cscan
            simp only [h1, h2, if_true, if_false]
          rw [hstep]
          rcases this with ⟨a, ha, e, hv⟩ | ⟨pre', post', e, e2, e3, e4⟩
          · exact Or.inl ⟨a, by simp [ha], e, hv⟩
          · exact Or.inr ⟨pre', post', by simpa using e, e2, e3, e4⟩
      · right
        refine ⟨pre, c :: post, rfl, ?_, hpre, ?_⟩
        · unfold cscan
          simp only [h1, if_false, List.head?_cons]
        · intro a ha
          rcases List.mem_cons.1 ha with rfl | ha
          · exact not_le.1 h1
          · exact (not_le.1 h1).trans (hs3.1 a ha)

/-- How the loop of `insert` ends. -/
theorem cplace_ok {v : α} {mem : Nat → CEntry α} :
    ∀ (fuel : Nat) (pre post : List Nat) (p : Option Nat), Linked (nexts mem) p post → post.length ≤ fuel →
      (pre ++ post).Pairwise (fun a b => (mem a).value < (mem b).value) → (∀ a ∈ pre, (mem a).value ≤ v) →
      ∃ pre' post', pre ++ post = pre' ++ post' ∧ cplace mem v fuel pre.getLast? p = some (pre'.getLast?, post'.head?) ∧
        (∀ a ∈ pre', (mem a).value ≤ v) ∧ ∀ a ∈ post', v < (mem a).value := by
  intro fuel
  induction fuel with
  | zero =>
    intro pre post p hl hf _ hpre
    have : post = [] := List.length_eq_zero_iff.1 (by omega)
    subst this
    have : p = none := hl
    subst this
    exact ⟨pre, [], rfl, rfl, hpre, by simp⟩
  | succ k ih =>
    intro pre post p hl hf hs hpre
    cases post with
    | nil =>
      have : p = none := hl
      subst this
      exact ⟨pre, [], rfl, rfl, hpre, by simp⟩
    | cons c post =>
      obtain ⟨rfl, hl2⟩ := hl
      have hs2 := (List.pairwise_append.1 hs).2.1
      have hs3 := List.pairwise_cons.1 hs2
      by_cases h1 : (mem c).value ≤ v
      · have := ih (pre ++ [c]) post _ hl2 (by simp at hf; omega) (by simpa using hs) (by
          intro a ha
          rcases List.mem_append.1 ha with ha | ha
          · exact hpre a ha
          · rw [List.mem_singleton.1 ha]; exact h1)
        have hstep : cplace mem v (k + 1) pre.getLast? (some c) = cplace mem v k (pre ++ [c]).getLast? (mem c).next := by
          rw [show (pre ++ [c]).getLast? = some c by simp]
          conv_lhs => unfold cplace
          simp only [h1, if_true]
        rw [hstep]
        obtain ⟨pre', post', e, e2, e3, e4⟩ := this
        exact ⟨pre', post', by simpa using e, e2, e3, e4⟩
      · refine ⟨pre, c :: post, rfl, ?_, hpre, ?_⟩
        · unfold cplace
          simp only [h1, if_false, List.head?_cons]
        · intro a ha
          rcases List.mem_cons.1 ha with rfl | ha
          · exact not_le.1 h1
          · exact (not_le.1 h1).trans (hs3.1 a ha)

/-- What a new entry leaves of the table. -/
structure Added (P : CParams α) (s s' : CTable α) (L : Nat → List Nat) (v : α) (e : Nat) : Prop where
  rep : ∃ L' av', Rep P s' L' av' ∧ ∀ k a, a ∈ L' k ↔ a ∈ L k ∨ (k = P.hash v ∧ a = e)
  fresh : ∀ k, e ∉ L k
  value : (s'.mem e).value = v
  ref : (s'.mem e).refCount = 0
  others : ∀ b, b ≠ e → (s'.mem b).value = (s.mem b).value ∧ (s'.mem b).refCount = (s.mem b).refCount
  none : ∀ k, ∀ a ∈ L k, P.tol < |(s.mem a).value - v|
  limit : s'.gcLimit = s.gcLimit
  count : s'.count = s.count + 1

/-- A number that is not near to any other is put into its place. -/
theorem Rep.put (h : Rep P s L av) {v : α} {pre post : List Nat} (hL : L (P.hash v) = pre ++ post)
    (hpre : ∀ a ∈ pre, (s.mem a).value < v) (hpost : ∀ a ∈ post, v < (s.mem a).value)
    (hap : ∀ k, ∀ a ∈ L k, P.tol < |(s.mem a).value - v|) (h0 : P.tol < v) (h1 : P.tol < |v - 1|) (h2 : P.tol < |v - P.sqrt|) :
    Added P s (((s.getEntry.2).setValue s.getEntry.1 v).link (P.hash v) s.getEntry.1 pre.getLast? post.head?) L v
      s.getEntry.1 := by
  obtain ⟨av', hr, he, hav, hlt, -, hlim, hval, href, htab, htail, hoth⟩ := h.getEntry v
  have hm : ∀ k, ∀ a ∈ L k, ((s.getEntry.2).setValue s.getEntry.1 v).mem a = s.mem a := by
    intro k a ha
    exact hoth a (by rintro rfl; exact he k ha)
  have hin : ∀ a, a ∈ pre ∨ a ∈ post → a ∈ L (P.hash v) := by
    intro a ha; rw [hL]; simpa using ha
  refine ⟨⟨_, av', hr.link he hav hlt hval rfl hL ?_ ?_ ?_ h0 h1 h2, ?_⟩, he, ?_, ?_, ?_, hap, ?_, ?_⟩
  · intro a ha; rw [hm _ a (hin a (Or.inl ha))]; exact hpre a ha
  · intro a ha; rw [hm _ a (hin a (Or.inr ha))]; exact hpost a ha
  · intro k a ha; rw [hm k a ha]; exact hap k a ha
  · intro k a
    by_cases hk : k = P.hash v
    · subst hk
      simp [hL]
      tauto
    · simp [hk]
  · rw [(link_mem _ _ _ _ _ _).1]; exact hval
  · rw [(link_mem _ _ _ _ _ _).2.1]; exact href
  · intro b hb
    rw [(link_mem _ _ _ _ _ _).1, (link_mem _ _ _ _ _ _).2.1, hoth b hb]
    exact ⟨rfl, rfl⟩
  · rw [(link_mem _ _ _ _ _ 0).2.2.2]; exact hlim
  · rw [(link_rest _ _ _ _ _).2.2.2.2, hr.count, h.count]

/-- How `lookup` ends. -/
inductive Looked (P : CParams α) (s : CTable α) (L : Nat → List Nat) (v : α) : Option (CPtr × CTable α) → Prop
  | static {p : CPtr} (hp : p = .zero ∨ p = .one ∨ p = .sqrt) (hv : |s.val P p - v| ≤ P.tol) : Looked P s L v (some (p, s))
  | hit {k a : Nat} (ha : a ∈ L k) (hv : |(s.mem a).value - v| ≤ P.tol) : Looked P s L v (some (.entry a, s))
  | added {e : Nat} {s' : CTable α} (h : Added P s s' L v e) (h0 : P.tol < v) (h1 : P.tol < |v - 1|)
      (h2 : P.tol < |v - P.sqrt|) : Looked P s L v (some (.entry e, s'))

theorem Rep.findOrInsert (h : Rep P s L av) (hP : P.Fits) {v : α} {key : Nat} (hlow : P.hash (v - P.tol) = key)
    (hup : P.hash (v + P.tol) = key) (h0 : P.tol < v) (h1 : P.tol < |v - 1|) (h2 : P.tol < |v - P.sqrt|) :
    Looked P s L v (s.findOrInsert P key v) := by
  have htol := hP.tol_pos
  have hk : P.hash v = key := by
    have a := hP.hash_mono (show v - P.tol ≤ v by linarith)
    have b := hP.hash_mono (show v ≤ v + P.tol by linarith)
    omega
  subst hk
  have hs := cscan_ok (tol := P.tol) (v := v) s.fresh [] (L (P.hash v)) _ (h.bucket _) (h.length_le _)
    (by simpa using h.sorted (P.hash v)) (by simp)
  simp only [List.getLast?_nil, List.nil_append] at hs
  unfold CTable.findOrInsert
  rcases hs with ⟨a, ha, e, hv⟩ | ⟨pre, post, e, e2, e3, e4⟩
  · rw [e]
    exact .hit ha hv
  · rw [e2]
    refine .added (h.put e (fun a ha => by linarith [e3 a ha]) (fun a ha => by linarith [e4 a ha]) ?_ h0 h1 h2) h0 h1 h2
    intro k a ha
    by_contra hc
    have hc := abs_le.1 (not_lt.1 hc)
    have hka : k = P.hash v := by
      rw [← h.key k a ha]
      have a1 := hP.hash_mono (show v - P.tol ≤ (s.mem a).value by linarith)
      have a2 := hP.hash_mono (show (s.mem a).value ≤ v + P.tol by linarith)
      omega
    subst hka
    rw [e] at ha
    rcases List.mem_append.1 ha with ha | ha
    · linarith [e3 a ha]
    · linarith [e4 a ha]

theorem Rep.insert (h : Rep P s L av) {v : α} (hap : ∀ k, ∀ a ∈ L k, P.tol < |(s.mem a).value - v|) (htol : 0 < P.tol)
    (h0 : P.tol < v) (h1 : P.tol < |v - 1|) (h2 : P.tol < |v - P.sqrt|) : Looked P s L v (s.insert (P.hash v) v) := by
  obtain ⟨av', hr, he, hav, hlt, -, hlim, hval, href, htab, htail, hoth⟩ := h.getEntry v
  have hm : ∀ k, ∀ a ∈ L k, ((s.getEntry.2).setValue s.getEntry.1 v).mem a = s.mem a := by
    intro k a ha
    exact hoth a (by rintro rfl; exact he k ha)
  obtain ⟨pre, post, e, e2, e3, e4⟩ := cplace_ok (v := v) ((s.getEntry.2).setValue s.getEntry.1 v).fresh [] (L (P.hash v)) _
    (hr.bucket (P.hash v)) (hr.length_le _) (by simpa using hr.sorted (P.hash v)) (by simp)
  simp only [List.getLast?_nil, List.nil_append] at e e2
  unfold CTable.insert
  simp only [e2]
  have hin : ∀ a, a ∈ pre ∨ a ∈ post → a ∈ L (P.hash v) := by
    intro a ha; rw [e]; simpa using ha
  refine .added (h.put e ?_ ?_ hap h0 h1 h2) h0 h1 h2
  · intro a ha
    have h5 := e3 a ha
    rw [hm _ a (hin a (Or.inl ha))] at h5
    have h6 := hap _ a (hin a (Or.inl ha))
    rcases lt_or_eq_of_le h5 with h5 | h5
    · exact h5
    · rw [h5] at h6
      simp at h6
      linarith
  · intro a ha
    have h5 := e4 a ha
    rwa [hm _ a (hin a (Or.inr ha))] at h5

theorem near_iff (s : CTable α) (v : α) (p : Option Nat) :
    s.near P v p = true ↔ ∃ a, p = some a ∧ |(s.mem a).value - v| ≤ P.tol := by
  cases p with
  | none => simp [CTable.near]
  | some a => simp [CTable.near, abs_sub_comm]

theorem Rep.lookup (h : Rep P s L av) (hP : P.Fits) {v : α} (hv : 0 ≤ v) : Looked P s L v (s.lookup P v) := by
  have htol := hP.tol_pos
  unfold CTable.lookup
  by_cases c0 : |v| ≤ P.tol
  · rw [if_pos c0]
    exact .static (Or.inl rfl) (by simpa [CTable.val] using c0)
  rw [if_neg c0]
  by_cases c1 : |v - 1| ≤ P.tol
  · rw [if_pos c1]
    exact .static (Or.inr (Or.inl rfl)) (by rw [abs_sub_comm]; exact c1)
  rw [if_neg c1]
  by_cases c2 : |v - P.sqrt| ≤ P.tol
  · rw [if_pos c2]
    exact .static (Or.inr (Or.inr rfl)) (by rw [abs_sub_comm]; exact c2)
  rw [if_neg c2]
  rw [not_le] at c0 c1 c2
  rw [abs_of_nonneg hv] at c0
  simp only
  by_cases hk : P.hash (v + P.tol) = P.hash (v - P.tol)
  · rw [if_pos hk]
    exact h.findOrInsert hP rfl hk c0 c1 c2
  rw [if_neg hk]
  have hm1 := hP.hash_mono (show v - P.tol ≤ v by linarith)
  have hm2 := hP.hash_mono (show v ≤ v + P.tol by linarith)
  have hst := hP.hash_step v
  have hlo : (if P.hash (v - P.tol) ≠ P.hash v then s.tail (P.hash (v - P.tol)) else s.tail (P.hash v)) =
      s.tail (P.hash (v - P.tol)) := by
    split_ifs with hc
    · rfl
    · rw [not_not.1 hc]
  have hhi : (if P.hash (v - P.tol) ≠ P.hash v then s.table (P.hash v) else s.table (P.hash (v + P.tol))) =
      s.table (P.hash (v + P.tol)) := by
    split_ifs with hc
    · congr 1; omega
    · rfl
  rw [hlo, hhi]
  have hins : s.near P v (s.tail (P.hash (v - P.tol))) = false → s.near P v (s.table (P.hash (v + P.tol))) = false →
      Looked P s L v (s.insert (P.hash v) v) := by
    intro n1 n2
    refine h.insert ?_ htol c0 c1 c2
    intro k a ha
    by_contra hc
    have hcle := not_lt.1 hc
    have hc := abs_le.1 hcle
    have a1 := hP.hash_mono (show v - P.tol ≤ (s.mem a).value by linarith)
    have a2 := hP.hash_mono (show (s.mem a).value ≤ v + P.tol by linarith)
    have hka := h.key k a ha
    by_cases hkl : k = P.hash (v - P.tol)
    · rw [← Bool.not_eq_true] at n1
      apply n1
      rw [near_iff, ← hkl, h.tail k]
      have hne : L k ≠ [] := List.ne_nil_of_mem ha
      refine ⟨(L k).getLast hne, List.getLast?_eq_some_getLast hne, ?_⟩
      have hz := h.key k _ (List.getLast_mem hne)
      have hz2 := hP.lt_of_hash (x := (s.mem ((L k).getLast hne)).value) (y := v + P.tol) (by omega)
      have hz3 : (s.mem a).value ≤ (s.mem ((L k).getLast hne)).value := by
        have hs := h.sorted k
        rw [← List.dropLast_append_getLast hne] at hs ha
        rcases List.mem_append.1 ha with ha | ha
        · exact ((List.pairwise_append.1 hs).2.2 a ha _ (by simp)).le
        · rw [List.mem_singleton.1 ha]
      exact abs_le.2 ⟨by linarith, by linarith⟩
    · have hku : k = P.hash (v + P.tol) := by omega
      rw [← Bool.not_eq_true] at n2
      apply n2
      rw [near_iff, ← hku]
      cases hLk : L k with
      | nil => rw [hLk] at ha; simp at ha
      | cons f l =>
        have hb := h.bucket k
        have hs := h.sorted k
        rw [hLk] at hb hs ha
        refine ⟨f, hb.1, ?_⟩
        have hz := h.key k f (by rw [hLk]; simp)
        have hz2 := hP.lt_of_hash (x := v - P.tol) (y := (s.mem f).value) (by omega)
        have hz3 : (s.mem f).value ≤ (s.mem a).value := by
          rcases List.mem_cons.1 ha with rfl | ha
          · exact le_rfl
          · exact ((List.pairwise_cons.1 hs).1 a ha).le
        exact abs_le.2 ⟨by linarith, by linarith⟩
  have hitl : ∀ a, s.tail (P.hash (v - P.tol)) = some a → s.near P v (s.tail (P.hash (v - P.tol))) = true →
      Looked P s L v (some (.entry a, s)) := by
    intro a ha hn
    obtain ⟨b, hb, hb2⟩ := (near_iff s v _).1 hn
    rw [ha] at hb
    cases hb
    rw [h.tail] at ha
    exact .hit (List.mem_of_getLast? ha) hb2
  have hitu : ∀ a, s.table (P.hash (v + P.tol)) = some a → s.near P v (s.table (P.hash (v + P.tol))) = true →
      Looked P s L v (some (.entry a, s)) := by
    intro a ha hn
    obtain ⟨b, hb, hb2⟩ := (near_iff s v _).1 hn
    rw [ha] at hb
    cases hb
    rw [(h.bucket _).head] at ha
    exact .hit (List.mem_of_head? ha) hb2
  cases ht : s.tail (P.hash (v - P.tol)) with
  | none =>
    cases hu : s.table (P.hash (v + P.tol)) with
    | none =>
      exact hins (by rw [ht]; rfl) (by rw [hu]; rfl)
    | some u =>
      cases nu : s.near P v (some u) with
      | true => exact hitu u hu (by rw [hu]; exact nu)
      | false => exact hins (by rw [ht]; rfl) (by rw [hu]; exact nu)
  | some l =>
    cases nl : s.near P v (some l) with
    | true =>
      have hl := hitl l ht (by rw [ht]; exact nl)
      cases hu : s.table (P.hash (v + P.tol)) with
      | none => exact hl
      | some u =>
        cases nu : s.near P v (some u) with
        | true =>
          simp only
          split_ifs
          · exact hl
          · exact hitu u hu (by rw [hu]; exact nu)
        | false => exact hl
    | false =>
      cases hu : s.table (P.hash (v + P.tol)) with
      | none => exact hins (by rw [ht]; exact nl) (by rw [hu]; rfl)
      | some u =>
        cases nu : s.near P v (some u) with
        | true => exact hitu u hu (by rw [hu]; exact nu)
        | false => exact hins (by rw [ht]; exact nl) (by rw [hu]; exact nu)

end

end Qudits.DD
