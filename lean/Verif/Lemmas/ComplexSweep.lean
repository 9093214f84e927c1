import Verif.Lemmas.ComplexTable
/-
Lemmas for the garbage collection of the table of real numbers.
-/
namespace Qudits.DD

variable {α : Type} [Field α] [LinearOrder α] [IsStrictOrderedRing α]
variable {P : CParams α} {s : CTable α} {L : Nat → List Nat} {av : List Nat}

/-- An entry is taken out of its bucket and put among the free ones. -/
def CTable.unlink (s : CTable α) (key p : Nat) (last : Option Nat) : CTable α :=
  (match last with
    | none => { s with table := Function.update s.table key (s.mem p).next }
    | some l => s.setNext l (s.mem p).next).returnEntry p

theorem unlink_mem (s : CTable α) (key p : Nat) (last : Option Nat) (b : Nat) :
    ((s.unlink key p last).mem b).value = (s.mem b).value ∧ ((s.unlink key p last).mem b).refCount = (s.mem b).refCount := by
  have hset : ∀ (t : CTable α) (x : Nat) (n : Option Nat),
      (((t.setNext x n).mem b).value = (t.mem b).value ∧ ((t.setNext x n).mem b).refCount = (t.mem b).refCount) := by
    intro t x n
    unfold CTable.setNext
    by_cases hb : b = x
    · subst hb; simp
    · simp [Function.update_of_ne hb]
  unfold CTable.unlink CTable.returnEntry
  cases last <;> simp [hset]

theorem unlink_rest (s : CTable α) (key p : Nat) (last : Option Nat) :
    nexts (s.unlink key p last).mem =
        Function.update (match last with | none => nexts s.mem | some l => Function.update (nexts s.mem) l (nexts s.mem p)) p
          s.available ∧
      (s.unlink key p last).table =
        (match last with | none => Function.update s.table key (nexts s.mem p) | some _ => s.table) ∧
      (s.unlink key p last).available = some p ∧ (s.unlink key p last).fresh = s.fresh ∧
      (s.unlink key p last).gcLimit = s.gcLimit ∧ (s.unlink key p last).tail = s.tail ∧
      (s.unlink key p last).count = s.count := by
  unfold CTable.unlink CTable.returnEntry CTable.setNext
  cases last <;> simp [nexts_update] <;> simp [nexts]

theorem Rep.unlink (h : Rep P s L av) {key p : Nat} {pre post : List Nat} (hL : L key = pre ++ p :: post) :
    Rep P { s.unlink key p pre.getLast? with
      tail := Function.update s.tail key (pre ++ post).getLast?, count := s.count - 1 }
      (Function.update L key (pre ++ post)) (p :: av) := by
  have hv : ∀ b, ((s.unlink key p pre.getLast?).mem b).value = (s.mem b).value := fun b => (unlink_mem s key p _ b).1
  obtain ⟨hn, ht, ha, hfr, -, -, -⟩ := unlink_rest s key p pre.getLast?
  have hndk := h.nodup key
  rw [hL] at hndk
  have hd := List.nodup_append.1 hndk
  have hpc := List.nodup_cons.1 hd.2.1
  have hppre : p ∉ pre := fun hc => hd.2.2 p hc p (by simp) rfl
  have hpL : p ∈ L key := by rw [hL]; simp
  have hmem : ∀ k a, a ∈ Function.update L key (pre ++ post) k ↔ a ∈ L k ∧ a ≠ p := by
    intro k a
    by_cases hk : k = key
    · subst hk
      rw [Function.update_self, hL]
      simp only [List.mem_append, List.mem_cons]
      constructor
      · rintro (hm | hm)
        · exact ⟨Or.inl hm, by rintro rfl; exact hppre hm⟩
        · exact ⟨Or.inr (Or.inr hm), by rintro rfl; exact hpc.1 hm⟩
      · rintro ⟨hm | hm | hm, hne⟩
        · exact Or.inl hm
        · exact absurd hm hne
        · exact Or.inr hm
    · rw [Function.update_of_ne hk]
      constructor
      · intro hm
        exact ⟨hm, by rintro rfl; exact hk (h.other hm hpL)⟩
      · exact fun hm => hm.1
  have hsub : ∀ k a, a ∈ Function.update L key (pre ++ post) k → a ∈ L k := fun k a hm => ((hmem k a).1 hm).1
  have hbk : Linked (nexts s.mem) (s.table key) (pre ++ p :: post) := hL ▸ h.bucket key
  have hkeep : ∀ {q : Option Nat} {l : List Nat}, Linked (nexts s.mem) q l → p ∉ l → (∀ z, pre.getLast? = some z → z ∉ l) →
      Linked (nexts (s.unlink key p pre.getLast?).mem) q l := by
    intro q l hl hel hq
    refine hl.congr fun b hb => ?_
    rw [hn, Function.update_of_ne (by rintro rfl; exact hel hb)]
    cases hpl : pre.getLast? with
    | none => rfl
    | some z =>
      simp only
      rw [Function.update_of_ne (by rintro rfl; exact hq b hpl hb)]
  have hlastmem : ∀ z, pre.getLast? = some z → z ∈ L key := by
    intro z hz
    rw [hL]
    exact List.mem_append_left _ (List.mem_of_getLast? hz)
  constructor
  · intro k
    simp only
    by_cases hk : k = key
    · subst hk
      rw [Function.update_self, ht, hn]
      rcases List.eq_nil_or_concat pre with rfl | ⟨pre', q, rfl⟩
      · simp only [List.nil_append] at hbk ⊢
        simp only [List.getLast?_nil, Function.update_self]
        refine hbk.2.congr fun b hb => ?_
        rw [Function.update_of_ne (by rintro rfl; exact hpc.1 hb)]
      · have hq : (pre' ++ [q]).getLast? = some q := by simp
        simp only [List.concat_eq_append, hq] at hbk hppre hndk hd ⊢
        have hbk' : Linked (nexts s.mem) (s.table k) (pre' ++ q :: (p :: post)) := by simpa using hbk
        have hnd' : (pre' ++ q :: (p :: post)).Nodup := by simpa using hndk
        have hd' := List.nodup_append.1 hnd'
        have hqc := List.nodup_cons.1 hd'.2.1
        have hqp : q ≠ p := by rintro rfl; simp at hppre
        obtain ⟨z, hz⟩ := hbk'.tail_of
        have hsp := Linked.splice (l := post) (q := nexts s.mem p) hbk' (fun hc => hd'.2.2 q hc q (by simp) rfl)
          (fun hc => hqc.1 (by simp [hc])) (fun b hb hc => hd'.2.2 b hb b (by simp [hc]) rfl) hz.2.2
        have := hsp.congr (g := Function.update (Function.update (nexts s.mem) q (nexts s.mem p)) p s.available) (by
          intro b hb
          rw [Function.update_of_ne (a := b) (a' := p)]
          rintro rfl
          simp only [List.mem_append, List.mem_cons] at hb
          rcases hb with hb | hb | hb
          · simp [hb] at hppre
          · exact hqp hb.symm
          · exact hpc.1 hb)
        simpa using this
    · rw [Function.update_of_ne hk]
      have htk : (s.unlink key p pre.getLast?).table k = s.table k := by
        rw [ht]
        cases pre.getLast? with
        | none => simp only; rw [Function.update_of_ne hk]
        | some q => rfl
      rw [htk]
      exact hkeep (h.bucket k) (fun hc => hk (h.other hc hpL)) (fun z hz hc => hk (h.other hc (hlastmem z hz)))
  · intro k
    simp only
    by_cases hk : k = key
    · subst hk; simp
    · rw [Function.update_of_ne hk, Function.update_of_ne hk]; exact h.tail k
  · simp only [ha]
    refine ⟨rfl, ?_⟩
    have hpn : nexts (s.unlink key p pre.getLast?).mem p = s.available := by rw [hn, Function.update_self]
    rw [hpn]
    exact hkeep h.free (fun hc => h.av_disj p hc key hpL) (fun z hz hc => h.av_disj z hc key (hlastmem z hz))
  · intro k a hm
    simp only [hv]; exact h.key k a (hsub k a hm)
  · intro k
    simp only [hv]
    by_cases hk : k = key
    · subst hk
      rw [Function.update_self]
      have := h.sorted k
      rw [hL] at this
      refine this.sublist ?_
      exact List.Sublist.append_left (List.sublist_cons_self _ _) _
    · rw [Function.update_of_ne hk]; exact h.sorted k
  · intro j k a hma b hmb hab
    simp only [hv]
    exact h.apart j k a (hsub j a hma) b (hsub k b hmb) hab
  · intro k a hm; simp only [hv]; exact h.pos k a (hsub k a hm)
  · intro k a hm; simp only [hv]; exact h.one k a (hsub k a hm)
  · intro k a hm; simp only [hv]; exact h.sqrt k a (hsub k a hm)
  · exact List.nodup_cons.2 ⟨fun hc => h.av_disj p hc key hpL, h.av_nodup⟩
  · intro a haa k hm
    obtain ⟨hm1, hm2⟩ := (hmem k a).1 hm
    rcases List.mem_cons.1 haa with haa | haa
    · exact hm2 haa
    · exact h.av_disj a haa k hm1
  · intro k a hm
    simp only [hfr]; exact h.used k a (hsub k a hm)
  · intro a haa
    simp only [hfr]
    rcases List.mem_cons.1 haa with haa | haa
    · rw [haa]; exact h.used key p hpL
    · exact h.av_used a haa
  · intro a haa
    simp only [hfr] at haa
    simp only
    rw [(unlink_mem s key p _ a).2]
    exact h.clean a haa
  · simp only
    have hk : key ∈ Finset.range (P.mask + 1) := Finset.mem_range.2 (Nat.lt_succ_of_le (h.key_le hpL))
    have hlen : ∀ k, (L k).length = (Function.update L key (pre ++ post) k).length + if k = key then 1 else 0 := by
      intro k
      by_cases hk : k = key
      · subst hk; simp [hL]; omega
      · simp [hk]
    rw [h.count]
    simp only [hlen, Finset.sum_add_distrib]
    rw [Finset.sum_ite_eq', if_pos hk]
    simp

/-- The state without looking at the ends of the buckets and at the number of entries. -/
def Core (P : CParams α) (s : CTable α) (L : Nat → List Nat) (av : List Nat) : Prop :=
  ∃ (T : Nat → Option Nat) (n : Nat), Rep P { s with tail := T, count := n } L av

/-- What a collection leaves of numbers and counts. -/
structure Kept (s s' : CTable α) : Prop where
  mem : ∀ b, (s'.mem b).value = (s.mem b).value ∧ (s'.mem b).refCount = (s.mem b).refCount
  fresh : s'.fresh = s.fresh
  limit : s'.gcLimit = s.gcLimit

theorem Kept.trans {s t u : CTable α} (h : Kept s t) (g : Kept t u) : Kept s u :=
  ⟨fun b => ⟨(g.mem b).1.trans (h.mem b).1, (g.mem b).2.trans (h.mem b).2⟩, g.fresh.trans h.fresh, g.limit.trans h.limit⟩

/-- The entries of a list that are referenced. -/
def referenced (s : CTable α) (l : List Nat) : List Nat := l.filter fun a => (s.mem a).refCount ≠ 0

theorem referenced_congr {s s' : CTable α} (h : Kept s s') (l : List Nat) : referenced s' l = referenced s l := by
  unfold referenced
  refine List.filter_congr fun a _ => ?_
  rw [(h.mem a).2]

theorem csweep_ok (key : Nat) :
    ∀ (fuel : Nat) (post pre : List Nat) (s : CTable α) (L : Nat → List Nat) (av : List Nat) (c r : Nat),
      Core P s L av → (∀ k, k ≠ key → s.tail k = (L k).getLast?) → L key = pre ++ post → post.length ≤ fuel →
      (post = [] → s.tail key = pre.getLast?) →
      ∃ s' av', csweep key fuel s post.head? pre.getLast? c r =
          some (s', c + (post.length - (referenced s post).length), r + (referenced s post).length) ∧
        Core P s' (Function.update L key (pre ++ referenced s post)) av' ∧
        (∀ k, s'.tail k = (Function.update L key (pre ++ referenced s post) k).getLast?) ∧ Kept s s' := by
  intro fuel
  induction fuel with
  | zero =>
    intro post pre s L av c r hc ht hL hf ht0
    have : post = [] := List.length_eq_zero_iff.1 (by omega)
    subst this
    refine ⟨s, av, ?_, ?_, ?_, ⟨fun _ => ⟨rfl, rfl⟩, rfl, rfl⟩⟩
    · simp [referenced, csweep]
    · rw [show pre ++ referenced s [] = L key by rw [hL]; rfl, Function.update_eq_self]; exact hc
    · rw [show pre ++ referenced s [] = L key by rw [hL]; rfl, Function.update_eq_self]
      intro k
      by_cases hk : k = key
      · rw [hk, hL]; simpa using ht0 rfl
      · exact ht k hk
  | succ fuel ih =>
    intro post pre s L av c r hc ht hL hf ht0
    cases post with
    | nil =>
      refine ⟨s, av, ?_, ?_, ?_, ⟨fun _ => ⟨rfl, rfl⟩, rfl, rfl⟩⟩
      · simp [referenced, csweep]
      · rw [show pre ++ referenced s [] = L key by rw [hL]; rfl, Function.update_eq_self]; exact hc
      · rw [show pre ++ referenced s [] = L key by rw [hL]; rfl, Function.update_eq_self]
        intro k
        by_cases hk : k = key
        · rw [hk, hL]; simpa using ht0 rfl
        · exact ht k hk
    | cons p post =>
      obtain ⟨T, n, hR⟩ := hc
      have hbk : Linked (nexts s.mem) (s.table key) (pre ++ p :: post) := hL ▸ hR.bucket key
      have hnext : (s.mem p).next = post.head? := hbk.next_last
      by_cases hz : (s.mem p).refCount = 0
      · -- the entry is collected
        have hU := hR.unlink hL
        have hmemU := unlink_mem s key p pre.getLast?
        obtain ⟨-, -, -, hfU, hlU, htU, -⟩ := unlink_rest s key p pre.getLast?
        have hKU : Kept s { s.unlink key p pre.getLast? with tail := Function.update s.tail key pre.getLast? } :=
          ⟨hmemU, hfU, hlU⟩
        have hUeq : ∀ (T' : Nat → Option Nat) (n' : Nat),
            ({ ({ s with tail := T, count := n } : CTable α).unlink key p pre.getLast? with tail := T', count := n' } : CTable α) =
              { s.unlink key p pre.getLast? with tail := T', count := n' } := by
          intro T' n'
          unfold CTable.unlink CTable.returnEntry CTable.setNext
          cases pre.getLast? <;> rfl
        rw [hUeq] at hU
        have hrec := ih post pre { s.unlink key p pre.getLast? with tail := Function.update s.tail key pre.getLast? }
          (Function.update L key (pre ++ post)) (p :: av) (c + 1) r ⟨_, _, hU⟩
          (fun k hk => by simp only; rw [Function.update_of_ne hk, Function.update_of_ne hk]; exact ht k hk)
          (by simp) (by simp at hf; omega) (fun _ => by simp)
        rw [referenced_congr hKU] at hrec
        obtain ⟨s', av', e, hc', ht', hk'⟩ := hrec
        have hreq : referenced s (p :: post) = referenced s post := by
          unfold referenced
          rw [List.filter_cons_of_neg (by simp [hz])]
        have hle : (referenced s post).length ≤ post.length := List.length_filter_le _ _
        refine ⟨s', av', ?_, ?_, ?_, hKU.trans hk'⟩
        · rw [hreq]
          have hstep : csweep key (fuel + 1) s (some p) pre.getLast? c r =
              csweep key fuel { s.unlink key p pre.getLast? with tail := Function.update s.tail key pre.getLast? } post.head?
                pre.getLast? (c + 1) r := by
            conv_lhs => unfold csweep
            rw [if_pos hz]
            simp only [hnext]
            unfold CTable.unlink
            simp only [hnext]
            cases pre.getLast? <;> rfl
          rw [List.head?_cons, hstep, e]
          simp only [List.length_cons]
          congr 3
          omega
        · rw [hreq]; simpa using hc'
        · rw [hreq]; simpa using ht'
      · have hKU : Kept s { s with tail := Function.update s.tail key (some p) } := ⟨fun _ => ⟨rfl, rfl⟩, rfl, rfl⟩
        have hrec := ih post (pre ++ [p]) { s with tail := Function.update s.tail key (some p) } L av c (r + 1)
          ⟨T, n, hR⟩ (fun k hk => by simp only; rw [Function.update_of_ne hk]; exact ht k hk)
          (by simpa using hL) (by simp at hf; omega) (fun _ => by simp)
        rw [referenced_congr hKU] at hrec
        obtain ⟨s', av', e, hc', ht', hk'⟩ := hrec
        have hreq : referenced s (p :: post) = p :: referenced s post := by
          unfold referenced
          rw [List.filter_cons_of_pos (by simp [hz])]
        refine ⟨s', av', ?_, ?_, ?_, hKU.trans hk'⟩
        · rw [hreq]
          have hstep : csweep key (fuel + 1) s (some p) pre.getLast? c r =
              csweep key fuel { s with tail := Function.update s.tail key (some p) } post.head? (pre ++ [p]).getLast? c (r + 1) := by
            conv_lhs => unfold csweep
            rw [if_neg hz, hnext]
            simp
          rw [List.head?_cons, hstep, e]
          simp only [List.length_cons]
          congr 3
          · omega
          · omega
        · rw [hreq]; simpa using hc'
        · rw [hreq]; simpa using ht'

theorem csweepAll_ok :
    ∀ (keys : List Nat) (s : CTable α) (L : Nat → List Nat) (av : List Nat) (c r : Nat), keys.Nodup → Core P s L av →
      (∀ k, s.tail k = (L k).getLast?) →
      ∃ s' av', csweepAll keys s c r =
          some (s', c + (keys.map fun k => (L k).length - (referenced s (L k)).length).sum,
            r + (keys.map fun k => (referenced s (L k)).length).sum) ∧
        Core P s' (fun k => if k ∈ keys then referenced s (L k) else L k) av' ∧
        (∀ k, s'.tail k = (if k ∈ keys then referenced s (L k) else L k).getLast?) ∧ Kept s s' := by
  intro keys
  induction keys with
  | nil =>
    intro s L av c r _ hc ht
    exact ⟨s, av, by simp [csweepAll], by simpa using hc, by simpa using ht, ⟨fun _ => ⟨rfl, rfl⟩, rfl, rfl⟩⟩
  | cons key keys ih =>
    intro s L av c r hnd hc ht
    obtain ⟨hk, hnd⟩ := List.nodup_cons.1 hnd
    have hlen : (L key).length ≤ s.fresh := by
      obtain ⟨T, n, hR⟩ := hc
      exact hR.length_le key
    have hhead : s.table key = (L key).head? := by
      obtain ⟨T, n, hR⟩ := hc
      exact (hR.bucket key).head
    obtain ⟨s1, av1, e1, hc1, ht1, hk1⟩ := csweep_ok (P := P) key s.fresh (L key) [] s L av c r hc (fun k _ => ht k) rfl hlen
      (fun h0 => by rw [ht key, h0])
    simp only [List.nil_append, List.getLast?_nil] at e1 hc1 ht1
    obtain ⟨s2, av2, e2, hc2, ht2, hk2⟩ := ih s1 _ av1 (c + ((L key).length - (referenced s (L key)).length))
      (r + (referenced s (L key)).length) hnd hc1 ht1
    simp only [referenced_congr hk1] at e2 hc2 ht2
    have hL : (fun k => if k ∈ keys then referenced s (Function.update L key (referenced s (L key)) k)
        else Function.update L key (referenced s (L key)) k) =
        fun k => if k ∈ key :: keys then referenced s (L k) else L k := by
      funext k
      by_cases h1 : k = key
      · subst h1; simp [hk]
      · simp [h1]
    have hm : ∀ (f : List Nat → Nat), (keys.map fun k => f (Function.update L key (referenced s (L key)) k)) =
        keys.map fun k => f (L k) := by
      intro f
      refine List.map_congr_left fun k hkk => ?_
      rw [Function.update_of_ne (by rintro rfl; exact hk hkk)]
    refine ⟨s2, av2, ?_, ?_, ?_, hk1.trans hk2⟩
    · conv_lhs => unfold csweepAll
      rw [hhead, e1]
      simp only
      rw [e2, hm (fun l => l.length - (referenced s l).length), hm (fun l => (referenced s l).length)]
      simp only [List.map_cons, List.sum_cons]
      congr 3 <;> omega
    · rw [← hL]; exact hc2
    · intro k; rw [ht2 k]; exact congrArg List.getLast? (congrFun hL k)

/-- What `garbageCollect` does. -/
theorem Rep.collect (h : Rep P s L av) (force : Bool) :
    ∃ s' n L' av', s.collect P force = some (s', n) ∧ Rep P s' L' av' ∧
      (∀ b, (s'.mem b).value = (s.mem b).value ∧ (s'.mem b).refCount = (s.mem b).refCount) ∧
      (((force = false ∧ s.count < s.gcLimit) ∨ s.count ≤ 1) ∧ s' = s ∧ L' = L ∧ n = 0 ∨
       (¬((force = false ∧ s.count < s.gcLimit) ∨ s.count ≤ 1) ∧ (L' = fun k => referenced s (L k)) ∧ n + s'.count = s.count)) := by
  unfold CTable.collect
  by_cases hc : (force = false ∧ s.count < s.gcLimit) ∨ s.count ≤ 1
  · rw [if_pos hc]
    exact ⟨s, 0, L, av, rfl, h, fun _ => ⟨rfl, rfl⟩, Or.inl ⟨hc, rfl, rfl, rfl⟩⟩
  · rw [if_neg hc]
    obtain ⟨s', av', e, hc', ht', hk'⟩ := csweepAll_ok (P := P) (List.range (P.mask + 1)) s L av 0 0 List.nodup_range
      ⟨s.tail, s.count, h⟩ h.tail
    have hempty : ∀ k, P.mask < k → L k = [] := by
      intro k hk
      cases hl : L k with
      | nil => rfl
      | cons a l => exact absurd (h.key_le (k := k) (a := a) (by rw [hl]; simp)) (not_le.2 hk)
    have hL : (fun k => if k ∈ List.range (P.mask + 1) then referenced s (L k) else L k) = fun k => referenced s (L k) := by
      funext k
      by_cases hk : k ∈ List.range (P.mask + 1)
      · rw [if_pos hk]
      · rw [if_neg hk, hempty k (by simpa [Nat.lt_succ_iff] using hk)]; rfl
    rw [hL] at hc'
    have ht2 : ∀ k, s'.tail k = (referenced s (L k)).getLast? := fun k => (ht' k).trans (congrArg List.getLast? (congrFun hL k))
    rw [e]
    simp only [Nat.zero_add]
    have hsum : ((List.range (P.mask + 1)).map fun k => (referenced s (L k)).length).sum =
        ∑ k ∈ Finset.range (P.mask + 1), (referenced s (L k)).length := by
      rw [Finset.sum_eq_multiset_sum]; rfl
    refine ⟨_, _, fun k => referenced s (L k), av', rfl, ?_, hk'.mem, Or.inr ⟨hc, rfl, ?_⟩⟩
    · obtain ⟨T, n, hR⟩ := hc'
      exact ⟨hR.bucket, ht2, hR.free, hR.key, hR.sorted, hR.apart, hR.pos, hR.one, hR.sqrt, hR.av_nodup, hR.av_disj, hR.used,
        hR.av_used, hR.clean, hsum⟩
    · rw [h.count]
      simp only
      have hsum2 : ((List.range (P.mask + 1)).map fun k => (L k).length - (referenced s (L k)).length).sum =
          ∑ k ∈ Finset.range (P.mask + 1), ((L k).length - (referenced s (L k)).length) := by
        rw [Finset.sum_eq_multiset_sum]; rfl
      rw [hsum, hsum2, ← Finset.sum_add_distrib]
      refine Finset.sum_congr rfl fun k _ => ?_
      have := List.length_filter_le (fun a => decide ((s.mem a).refCount ≠ 0)) (L k)
      unfold referenced
      omega
end Qudits.DD
