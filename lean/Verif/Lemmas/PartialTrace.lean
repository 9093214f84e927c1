import Verif.Model.Visual
import Verif.Spec.VisualSpec
import Verif.Lemmas.Register
import Verif.Lemmas.Space
import Verif.Lemmas.Embed
/- Evaluation of `partial_trace`. -/
namespace Qudits.Visual
open Spec

variable {n : Nat} {α : Type}

theorem ravel_aux (dims ls : List Nat) (h : ls.length = dims.length) (k : Nat) :
    (dims.zip ls).foldl (fun k dl => k * dl.1 + dl.2) k = k * dims.prod + index dims ls := by
  induction dims generalizing ls k with
  | nil => simp [index]
  | cons d ds ih =>
    cases ls with
    | nil => simp at h
    | cons l ls =>
      simp only [List.zip_cons_cons, List.foldl_cons, List.prod_cons, index]
      rw [ih ls (by simpa using h)]
      ring

theorem ravel_eq (dims ls : List Nat) (h : ls.length = dims.length) : ravel dims ls = index dims ls := by
  unfold ravel; rw [ravel_aux dims ls h]; simp

/-- the label of a copy of a line -/
def lab (p : Fin n × Bool) : Nat := if p.2 then n + p.1 else p.1

theorem lab_injective : Function.Injective (lab (n := n)) := by
  rintro ⟨i, a⟩ ⟨j, b⟩ h
  have := i.2; have := j.2
  cases a <;> cases b <;> simp [lab] at h ⊢ <;> omega

/-- copies of lines read by the two halves of the index list -/
def firsts (n : Nat) : List (Fin n × Bool) := (List.finRange n).map fun i => (i, false)
def seconds (S : Finset (Fin n)) : List (Fin n × Bool) := (List.finRange n).map fun i => (i, decide (i ∈ S))

theorem firsts_nodup : (firsts n).Nodup :=
  (List.nodup_finRange n).map (fun _ _ h => (Prod.mk.inj h).1)

theorem seconds_nodup (S : Finset (Fin n)) : (seconds S).Nodup :=
  (List.nodup_finRange n).map (fun _ _ h => (Prod.mk.inj h).1)

theorem mem_firsts (p : Fin n × Bool) : p ∈ firsts n ↔ p.2 = false := by
  obtain ⟨i, b⟩ := p
  simp [firsts, eq_comm]

theorem mem_seconds (S : Finset (Fin n)) (p : Fin n × Bool) : p ∈ seconds S ↔ p.2 = decide (p.1 ∈ S) := by
  obtain ⟨i, b⟩ := p
  simp only [seconds, List.mem_map, List.mem_finRange, true_and, Prod.mk.injEq]
  constructor
  · rintro ⟨a, rfl, rfl⟩; rfl
  · intro h; exact ⟨i, rfl, h.symm⟩

theorem labels_eq (keep : List (Fin n)) :
    List.range n ++ (List.range n).map (fun i => if ((i : Nat) : Int) ∈ keep.map (fun j : Fin n => ((j : Nat) : Int))
      then n + i else i) = (firsts n ++ seconds keep.toFinset).map lab := by
  rw [List.map_append]
  congr 1
  · rw [firsts, List.map_map]
    have : (lab ∘ fun i : Fin n => (i, false)) = Fin.val := by funext i; simp [lab]
    rw [this, List.map_coe_finRange_eq_range]
  · rw [seconds, List.map_map, ← List.map_coe_finRange_eq_range, List.map_map]
    apply List.map_congr_left
    intro i _
    have : (((i : Nat) : Int) ∈ keep.map (fun j : Fin n => ((j : Nat) : Int))) ↔ i ∈ keep := by
      simp only [List.mem_map]
      constructor
      · rintro ⟨j, hj, e⟩
        have : j = i := Fin.ext (by exact_mod_cast e)
        exact this ▸ hj
      · intro h; exact ⟨i, h, rfl⟩
    simp only [Function.comp, lab, decide_eq_true_eq, List.mem_toFinset, this]

theorem count_labels (S : Finset (Fin n)) (p : Fin n × Bool) :
    ((firsts n ++ seconds S).map lab).count (lab p) =
      (if p.2 = false then 1 else 0) + if p.2 = decide (p.1 ∈ S) then 1 else 0 := by
  rw [List.count_map_of_injective _ _ lab_injective, List.count_append]
  congr 1
  · by_cases h : p.2 = false
    · rw [if_pos h]; exact List.count_eq_one_of_mem firsts_nodup ((mem_firsts p).2 h)
    · rw [if_neg h]; exact List.count_eq_zero_of_not_mem (fun hm => h ((mem_firsts p).1 hm))
  · by_cases h : p.2 = decide (p.1 ∈ S)
    · rw [if_pos h]; exact List.count_eq_one_of_mem (seconds_nodup S) ((mem_seconds S p).2 h)
    · rw [if_neg h]; exact List.count_eq_zero_of_not_mem (fun hm => h ((mem_seconds S p).1 hm))

/-- kept copies and summed copies -/
def kept (S : Finset (Fin n)) : List (Fin n × Bool) :=
  S.sort.map (fun i => (i, false)) ++ S.sort.map fun i => (i, true)
def dropped (S : Finset (Fin n)) : List (Fin n × Bool) := (Sᶜ).sort.map fun i => (i, false)

theorem kept_nodup (S : Finset (Fin n)) : (kept S).Nodup := by
  refine List.Nodup.append ((Finset.sort_nodup _ _).map (fun _ _ h => (Prod.mk.inj h).1))
    ((Finset.sort_nodup _ _).map (fun _ _ h => (Prod.mk.inj h).1)) ?_
  intro p h1 h2
  simp only [List.mem_map] at h1 h2
  obtain ⟨i, _, rfl⟩ := h1
  obtain ⟨j, _, h⟩ := h2
  simp at h

theorem dropped_nodup (S : Finset (Fin n)) : (dropped S).Nodup :=
  (Finset.sort_nodup _ _).map (fun _ _ h => (Prod.mk.inj h).1)

theorem mem_kept (S : Finset (Fin n)) (p : Fin n × Bool) : p ∈ kept S ↔ p.1 ∈ S := by
  obtain ⟨i, b⟩ := p
  cases b <;> simp [kept]

theorem mem_dropped (S : Finset (Fin n)) (p : Fin n × Bool) : p ∈ dropped S ↔ p.1 ∉ S ∧ p.2 = false := by
  obtain ⟨i, b⟩ := p
  cases b <;> simp [dropped]

theorem all_nodup (S : Finset (Fin n)) : (kept S ++ dropped S).Nodup := by
  refine List.Nodup.append (kept_nodup S) (dropped_nodup S) ?_
  intro p h1 h2
  exact ((mem_dropped S p).1 h2).1 ((mem_kept S p).1 h1)

theorem labelsWith_eq (p : Nat → Bool) (L : List Nat) (K : List (Fin n × Bool)) (hnd : K.Nodup)
    (hs : (K.map lab).Pairwise (· ≤ ·)) (hm : ∀ l, (l ∈ L ∧ p (L.count l) = true) ↔ l ∈ K.map lab) :
    labelsWith p L = K.map lab := by
  have hp : (labelsWith p L).Perm (K.map lab) := by
    refine (List.perm_insertionSort _ _).trans ?_
    rw [List.perm_ext_iff_of_nodup ((List.nodup_dedup L).filter _) (hnd.map lab_injective)]
    intro l
    rw [List.mem_filter, List.mem_dedup, hm]
  refine hp.eq_of_pairwise (le := (· ≤ ·)) ?_ (List.pairwise_insertionSort _ _) hs
  intro a b _ _ h1 h2; exact Nat.le_antisymm h1 h2

theorem sorted_half (T : Finset (Fin n)) (b : Bool) :
    ((T.sort.map fun i => (i, b)).map lab).Pairwise (· ≤ ·) := by
  rw [List.map_map, List.pairwise_map]
  refine (Finset.pairwise_sort T (· ≤ ·)).imp ?_
  intro i j h
  have h' : (i : Nat) ≤ j := h
  cases b <;> simp [lab] <;> omega

theorem out_labels (S : Finset (Fin n)) :
    labelsWith (· == 1) ((firsts n ++ seconds S).map lab) = (kept S).map lab := by
  apply labelsWith_eq _ _ _ (kept_nodup S)
  · rw [kept, List.map_append, List.pairwise_append]
    refine ⟨sorted_half S false, sorted_half S true, ?_⟩
    intro a ha b hb
    simp only [List.map_map, List.mem_map, Function.comp] at ha hb
    obtain ⟨i, _, rfl⟩ := ha
    obtain ⟨j, _, rfl⟩ := hb
    have := i.2
    simp [lab]; omega
  · intro l
    constructor
    · rintro ⟨h1, h2⟩
      obtain ⟨p, _, rfl⟩ := List.mem_map.1 h1
      rw [count_labels] at h2
      refine List.mem_map.2 ⟨p, (mem_kept S p).2 ?_, rfl⟩
      obtain ⟨i, b⟩ := p
      by_contra hi
      cases b
      · simp [hi] at h2
      · simp [hi] at h2
    · intro h
      obtain ⟨p, hp, rfl⟩ := List.mem_map.1 h
      have hp' := (mem_kept S p).1 hp
      refine ⟨List.mem_map.2 ⟨p, ?_, rfl⟩, ?_⟩
      · rw [List.mem_append, mem_firsts, mem_seconds]
        obtain ⟨i, b⟩ := p
        cases b <;> simp_all
      · rw [count_labels]
        obtain ⟨i, b⟩ := p
        cases b <;> simp_all

theorem sum_labels (S : Finset (Fin n)) :
    labelsWith (· != 1) ((firsts n ++ seconds S).map lab) = (dropped S).map lab := by
  apply labelsWith_eq _ _ _ (dropped_nodup S) (sorted_half _ false)
  intro l
  constructor
  · rintro ⟨h1, h2⟩
    obtain ⟨p, hp, rfl⟩ := List.mem_map.1 h1
    rw [count_labels] at h2
    rw [List.mem_append, mem_firsts, mem_seconds] at hp
    refine List.mem_map.2 ⟨p, (mem_dropped S p).2 ?_, rfl⟩
    obtain ⟨i, b⟩ := p
    by_cases hi : i ∈ S <;> cases b <;> simp_all
  · intro h
    obtain ⟨p, hp, rfl⟩ := List.mem_map.1 h
    have hp' := (mem_dropped S p).1 hp
    refine ⟨List.mem_map.2 ⟨p, ?_, rfl⟩, ?_⟩
    · rw [List.mem_append, mem_firsts]; exact Or.inl hp'.2
    · rw [count_labels]
      obtain ⟨i, b⟩ := p
      simp_all

theorem idxOf_map_lab (K : List (Fin n × Bool)) (p : Fin n × Bool) : (K.map lab).idxOf (lab p) = K.idxOf p := by
  induction K with
  | nil => rfl
  | cons a K ih =>
    rw [List.map_cons]
    by_cases h : a = p
    · subst h; simp
    · rw [List.idxOf_cons_ne _ (fun e => h (lab_injective e)), List.idxOf_cons_ne _ h, ih]

theorem map_getD_idxOf {β : Type} [BEq β] [LawfulBEq β] (K : List β) (g : β → Nat) (p : β) (h : p ∈ K) :
    (K.map g).getD (K.idxOf p) 0 = g p := by
  have hlt := List.idxOf_lt_length_iff.2 h
  simp [List.getD_eq_getElem?_getD, List.getElem?_eq_getElem hlt, List.getElem_idxOf]

theorem assigned_eq (K : List (Fin n × Bool)) (g : Fin n × Bool → Nat) (p : Fin n × Bool) (h : p ∈ K) :
    assigned (K.map lab) (K.map g) (lab p) = g p := by
  unfold assigned
  rw [idxOf_map_lab, map_getD_idxOf K g p h]

theorem dims_two (d : Fin n → Nat) (S : Finset (Fin n)) :
    List.ofFn d ++ List.ofFn d = (firsts n ++ seconds S).map fun p => d p.1 := by
  rw [List.map_append]
  congr 1 <;> simp [firsts, seconds, List.ofFn_eq_map, Function.comp_def]

theorem labelDim_eq (d : Fin n → Nat) (S : Finset (Fin n)) (p : Fin n × Bool) (h : p ∈ firsts n ++ seconds S) :
    labelDim ((firsts n ++ seconds S).map lab) (List.ofFn d ++ List.ofFn d) (lab p) = d p.1 := by
  rw [dims_two d S]
  exact assigned_eq (firsts n ++ seconds S) (fun p => d p.1) p h

theorem kept_mem (S : Finset (Fin n)) (p : Fin n × Bool) (h : p ∈ kept S ++ dropped S) : p ∈ firsts n ++ seconds S := by
  rw [List.mem_append, mem_kept, mem_dropped] at h
  rw [List.mem_append, mem_firsts, mem_seconds]
  obtain ⟨i, b⟩ := p
  cases b <;> simp_all

theorem mem_kept_of (S : Finset (Fin n)) (p : Fin n × Bool) (h : p ∈ firsts n ++ seconds S) : p ∈ kept S ++ dropped S := by
  rw [List.mem_append, mem_firsts, mem_seconds] at h
  rw [List.mem_append, mem_kept, mem_dropped]
  obtain ⟨i, b⟩ := p
  cases b <;> simp_all [em]

/-- level of a copy -/
def lev (d : Fin n → Nat) (x y : Reg d) (p : Fin n × Bool) : Nat := if p.2 then (y p.1 : Nat) else (x p.1 : Nat)

theorem read_all (d : Fin n → Nat) (S : Finset (Fin n)) (x y : Reg d) (h : ∀ i, i ∉ S → x i = y i) :
    (((firsts n ++ seconds S).map lab).map (assigned ((kept S ++ dropped S).map lab) ((kept S ++ dropped S).map (lev d x y)))) =
      List.ofFn (fun i => (x i : Nat)) ++ List.ofFn fun i => (y i : Nat) := by
  rw [List.map_map]
  have : (firsts n ++ seconds S).map
      (assigned ((kept S ++ dropped S).map lab) ((kept S ++ dropped S).map (lev d x y)) ∘ lab) =
      (firsts n ++ seconds S).map (lev d x y) := by
    apply List.map_congr_left
    intro p hp
    exact assigned_eq _ _ p (mem_kept_of S p hp)
  rw [this, List.map_append]
  congr 1
  · simp [firsts, List.ofFn_eq_map, lev]
  · rw [seconds, List.map_map, List.ofFn_eq_map]
    apply List.map_congr_left
    intro i _
    simp only [Function.comp, lev, decide_eq_true_eq]
    by_cases hi : i ∈ S
    · rw [if_pos hi]
    · rw [if_neg hi, h i hi]

/-- the levels of the lines in `S`, as a list -/
theorem attach_levels (d : Fin n → Nat) (S : Finset (Fin n)) (x : Reg d) :
    (S.sort.attach.map fun i => (restr S x ⟨i.1, (Finset.mem_sort _).1 i.2⟩ : Nat)) = S.sort.map fun i => (x i : Nat) :=
  List.attach_map_val (l := S.sort) (f := fun i : Fin n => (x i : Nat))

theorem levels_sort (d : Fin n → Nat) (S : Finset (Fin n)) (x : Reg d) :
    Levels (S.sort.map d) (S.sort.map fun i => (x i : Nat)) := by
  have := levels_subIdx d S (restr S x)
  rwa [attach_levels d S x] at this

/-- the state with the levels `v` on `S` and `u` elsewhere -/
def join (d : Fin n → Nat) (S : Finset (Fin n)) (v : SubLv (LvOf d) S) (u : SubLv (LvOf d) Sᶜ) : Reg d :=
  fun i => if h : i ∈ S then v ⟨i, h⟩ else u ⟨i, Finset.mem_compl.2 h⟩

theorem restr_join (d : Fin n → Nat) (S : Finset (Fin n)) (v : SubLv (LvOf d) S) (u : SubLv (LvOf d) Sᶜ) :
    restr S (join d S v u) = v := by
  funext i; simp [restr, join]

theorem restr_compl_join (d : Fin n → Nat) (S : Finset (Fin n)) (v : SubLv (LvOf d) S) (u : SubLv (LvOf d) Sᶜ) :
    restr Sᶜ (join d S v u) = u := by
  funext i
  have : (i : Fin n) ∉ S := Finset.mem_compl.1 i.2
  simp [restr, join, this]

theorem join_restr (d : Fin n → Nat) (S : Finset (Fin n)) (x : Reg d) : join d S (restr S x) (restr Sᶜ x) = x := by
  funext i
  by_cases h : i ∈ S <;> simp [restr, join, h]

/-- basis states as pairs -/
def splitEquiv (d : Fin n → Nat) (S : Finset (Fin n)) : SubLv (LvOf d) S × SubLv (LvOf d) Sᶜ ≃ Reg d where
  toFun p := join d S p.1 p.2
  invFun x := (restr S x, restr Sᶜ x)
  left_inv p := by
    obtain ⟨v, u⟩ := p
    exact Prod.ext (restr_join d S v u) (restr_compl_join d S v u)
  right_inv x := join_restr d S x

theorem agree_join (d : Fin n → Nat) (S : Finset (Fin n)) (v w : SubLv (LvOf d) S) (u t : SubLv (LvOf d) Sᶜ) :
    (∀ i, i ∉ S → join d S v u i = join d S w t i) ↔ u = t := by
  constructor
  · intro h
    funext i
    have hi : (i : Fin n) ∉ S := Finset.mem_compl.1 i.2
    have := h i hi
    simpa [join, hi] using this
  · rintro rfl i hi
    simp [join, hi]

theorem sum_states [AddCommMonoid α] (d : Fin n → Nat) (T : Finset (Fin n)) (f : List Nat → α) :
    ((itProduct (siteLogics (T.sort.map d))).map f).sum =
      ∑ u : SubLv (LvOf d) T, f (T.sort.attach.map fun i => (u ⟨i.1, (Finset.mem_sort _).1 i.2⟩ : Nat)) := by
  have hlen : (itProduct (siteLogics (T.sort.map d))).length = ∏ i ∈ T, d i := by
    rw [itProduct_site_length, sort_map_prod]
  rw [← Fin.sum_univ_getElem]
  simp only [List.getElem_map]
  symm
  refine Fintype.sum_bijective (fun u => (Fin.cast (by rw [List.length_map, hlen]) (subIdxEquiv d T u) :
    Fin ((itProduct (siteLogics (T.sort.map d))).map f).length)) ?_ _ _ ?_
  · exact (finCongr (by rw [List.length_map, hlen])).bijective.comp (subIdxEquiv d T).bijective
  · intro u
    congr 1
    have h := itProduct_getElem? (levels_subIdx d T u)
    have := (List.getElem?_eq_some_iff.1 h).2
    rw [← this]
    rfl

theorem reduced_eq [AddCommMonoid α] (d : Fin n → Nat) (S : Finset (Fin n)) (rho : Matrix (Reg d) (Reg d) α)
    (v w : SubLv (LvOf d) S) :
    reduced d S rho v w = ∑ u : SubLv (LvOf d) Sᶜ, rho (join d S v u) (join d S w u) := by
  unfold reduced
  rw [← (splitEquiv d S).sum_comp, Fintype.sum_prod_type, Finset.sum_eq_single v]
  · apply Finset.sum_congr rfl
    intro u _
    rw [← (splitEquiv d S).sum_comp, Fintype.sum_prod_type, Finset.sum_eq_single w, Finset.sum_eq_single u]
    · rw [if_pos]
      · rfl
      · exact ⟨restr_join d S v u, restr_join d S w u, (agree_join d S v w u u).2 rfl⟩
    · intro t _ ht
      rw [if_neg]
      rintro ⟨_, _, h⟩
      exact ht ((agree_join d S v w u t).1 h).symm
    · intro h; exact absurd (Finset.mem_univ _) h
    · intro w' _ hw
      apply Finset.sum_eq_zero
      intro t _
      rw [if_neg]
      rintro ⟨_, h, _⟩
      exact hw ((restr_join d S w' t).symm.trans h)
    · intro h; exact absurd (Finset.mem_univ _) h
  · intro v' _ hv
    apply Finset.sum_eq_zero
    intro t _
    apply Finset.sum_eq_zero
    intro y _
    rw [if_neg]
    rintro ⟨h, _⟩
    exact hv ((restr_join d S v' t).symm.trans h)
  · intro h; exact absurd (Finset.mem_univ _) h

/-- entries of the traced tensor -/
theorem einsum_at [AddCommMonoid α] (d : Fin n → Nat) (S : Finset (Fin n)) (A : Arr2 α)
    (hc : A.cols = ∏ i, d i) (v w : SubLv (LvOf d) S) :
    (einsum ((firsts n ++ seconds S).map lab) (List.ofFn d ++ List.ofFn d) fun ls : List Nat =>
        A.at' (ravel (List.ofFn d ++ List.ofFn d) ls / A.cols) (ravel (List.ofFn d ++ List.ofFn d) ls % A.cols)).2
      ((S.sort.attach.map fun i => (v ⟨i.1, (Finset.mem_sort _).1 i.2⟩ : Nat)) ++
        S.sort.attach.map fun i => (w ⟨i.1, (Finset.mem_sort _).1 i.2⟩ : Nat)) =
      reduced d S (opOf d A) v w := by
  have hsd : ((dropped S).map lab).map
      (labelDim ((firsts n ++ seconds S).map lab) (List.ofFn d ++ List.ofFn d)) = (Sᶜ).sort.map d := by
    rw [List.map_map]
    have : ∀ p ∈ dropped S, (labelDim ((firsts n ++ seconds S).map lab) (List.ofFn d ++ List.ofFn d) ∘ lab) p = d p.1 :=
      fun p hp => labelDim_eq d S p (kept_mem S p (List.mem_append_right _ hp))
    rw [List.map_congr_left this, dropped, List.map_map]
    rfl
  simp only [einsum]
  rw [out_labels, sum_labels, hsd, sum_states, reduced_eq]
  apply Finset.sum_congr rfl
  intro u _
  have hk : (S.sort.attach.map fun i => (v ⟨i.1, (Finset.mem_sort _).1 i.2⟩ : Nat)) ++
      (S.sort.attach.map fun i => (w ⟨i.1, (Finset.mem_sort _).1 i.2⟩ : Nat)) ++
      ((Sᶜ).sort.attach.map fun i => (u ⟨i.1, (Finset.mem_sort _).1 i.2⟩ : Nat)) =
      (kept S ++ dropped S).map (lev d (join d S v u) (join d S w u)) := by
    have e1 := attach_levels d S (join d S v u)
    have e2 := attach_levels d S (join d S w u)
    have e3 := attach_levels d Sᶜ (join d S v u)
    rw [restr_join] at e1 e2
    rw [restr_compl_join] at e3
    rw [e1, e2, e3, kept, dropped]
    simp only [List.map_append, List.map_map]
    rfl
  rw [hk, ← List.map_append, read_all d S _ _ ((agree_join d S v w u u).2 rfl)]
  have hlx : (List.ofFn fun i => (join d S v u i : Nat)).length = (List.ofFn d).length := by simp
  rw [ravel_eq _ _ (by simp), index_append hlx, List.prod_ofFn, hc]
  have hy : index (List.ofFn d) (List.ofFn fun i => (join d S w u i : Nat)) < ∏ i, d i := idx_lt d (join d S w u)
  have hpos : 0 < ∏ i, d i := by omega
  have h1 : (index (List.ofFn d) (List.ofFn fun i => (join d S v u i : Nat)) * ∏ i, d i +
      index (List.ofFn d) (List.ofFn fun i => (join d S w u i : Nat))) / ∏ i, d i =
      index (List.ofFn d) (List.ofFn fun i => (join d S v u i : Nat)) := by
    rw [Nat.mul_comm, Nat.mul_add_div hpos, Nat.div_eq_of_lt hy, Nat.add_zero]
  have h2 : (index (List.ofFn d) (List.ofFn fun i => (join d S v u i : Nat)) * ∏ i, d i +
      index (List.ofFn d) (List.ofFn fun i => (join d S w u i : Nat))) % ∏ i, d i =
      index (List.ofFn d) (List.ofFn fun i => (join d S w u i : Nat)) := by
    rw [Nat.mul_comm, Nat.mul_add_mod, Nat.mod_eq_of_lt hy]
  rw [h1, h2]
  rfl

theorem einsum_dims [AddCommMonoid α] (d : Fin n → Nat) (S : Finset (Fin n)) (t : List Nat → α) :
    (einsum ((firsts n ++ seconds S).map lab) (List.ofFn d ++ List.ofFn d) t).1 = S.sort.map d ++ S.sort.map d := by
  simp only [einsum]
  rw [out_labels, List.map_map]
  have : ∀ p ∈ kept S, (labelDim ((firsts n ++ seconds S).map lab) (List.ofFn d ++ List.ofFn d) ∘ lab) p = d p.1 :=
    fun p hp => labelDim_eq d S p (kept_mem S p (List.mem_append_left _ hp))
  rw [List.map_congr_left this, kept, List.map_append, List.map_map, List.map_map]
  rfl

theorem npGet_fin (d : Fin n → Nat) (i : Fin n) : npGet (List.ofFn d) ((i : Nat) : Int) = .ok (d i) := by
  unfold npGet
  have h0 : ¬ (((i : Nat) : Int) < 0) := by omega
  have := i.2
  simp only [if_neg h0]
  rw [if_pos (by simp)]
  congr 1
  rw [Int.toNat_natCast, getD_ofFn d i.1 i.2]

theorem partialTrace_ok [AddCommMonoid α] (d : Fin n → Nat) (keep : List (Fin n)) (hnd : keep.Nodup) (A : Arr2 α)
    (hr : A.rows = ∏ i, d i) (hc : A.cols = ∏ i, d i) :
    ∃ B, partialTrace A (keep.map fun i : Fin n => ((i : Nat) : Int)) (List.ofFn d) = .ok B ∧
      B.rows = ∏ i ∈ keep.toFinset, d i ∧ B.cols = ∏ i ∈ keep.toFinset, d i ∧
      onLines d keep.toFinset B.at' = reduced d keep.toFinset (opOf d A) := by
  have h1 : (keep.map fun i : Fin n => ((i : Nat) : Int)).mapM (npGet (List.ofFn d)) = .ok (keep.map d) := by
    rw [List.mapM_map]
    exact mapM_ok _ d keep (fun i _ => npGet_fin d i)
  have hp : (keep.map d).prod = ∏ i ∈ keep.toFinset, d i := (List.prod_toFinset d hnd).symm
  have hsz : A.rows * A.cols = (List.ofFn d ++ List.ofFn d).prod := by
    rw [List.prod_append, List.prod_ofFn, hr, hc]
  have hdims := einsum_dims d keep.toFinset (fun ls : List Nat =>
        A.at' (ravel (List.ofFn d ++ List.ofFn d) ls / A.cols) (ravel (List.ofFn d ++ List.ofFn d) ls % A.cols))
  have hval := einsum_at d keep.toFinset A hc
  unfold partialTrace
  simp only [h1, bind, Except.bind, List.length_ofFn]
  rw [if_neg (by simp [hsz]), labels_eq keep]
  generalize he : einsum ((firsts n ++ seconds keep.toFinset).map lab) (List.ofFn d ++ List.ofFn d) (fun ls : List Nat =>
        A.at' (ravel (List.ofFn d ++ List.ofFn d) ls / A.cols) (ravel (List.ofFn d ++ List.ofFn d) ls % A.cols)) = E at hdims hval ⊢
  obtain ⟨od, r⟩ := E
  simp only at hdims hval
  subst hdims
  simp only [pure, Except.pure]
  rw [if_neg (by simp [List.prod_append, sort_map_prod, hp])]
  refine ⟨_, rfl, hp, hp, ?_⟩
  ext v w
  rw [← hval v w]
  simp only [onLines]
  congr 1
  have hl := (levels_subIdx d keep.toFinset v).append (levels_subIdx d keep.toFinset w)
  have := itProduct_getElem? hl
  rw [index_append (by simp), sort_map_prod] at this
  rw [List.getD_eq_getElem?_getD, hp]
  unfold subIdx
  rw [this]
  rfl

end Qudits.Visual
