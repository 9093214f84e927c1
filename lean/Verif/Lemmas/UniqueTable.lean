import Verif.Spec.UniqueSpec
import Mathlib.Data.List.Nodup
import Mathlib.Data.Finset.Card
import Mathlib.Data.Finset.Range
/- The linked lists of the unique table. -/
namespace Qudits.DD
open Spec

variable {W : Type} [DecidableEq W]

/-- following `next` from `p` visits exactly `l` -/
def Chain (mem : Nat → UNode W) : Option Nat → List Nat → Prop
  | p, [] => p = none
  | p, a :: l => p = some a ∧ Chain mem (mem a).next l

omit [DecidableEq W] in
theorem Chain.congr {mem mem' : Nat → UNode W} : ∀ {l : List Nat} {p : Option Nat}, Chain mem p l →
    (∀ a ∈ l, (mem' a).next = (mem a).next) → Chain mem' p l
  | [], _, h, _ => h
  | a :: l, _, h, hn => ⟨h.1, by
      rw [hn a List.mem_cons_self]
      exact Chain.congr h.2 fun b hb => hn b (List.mem_cons_of_mem _ hb)⟩

theorem search_ok (mem : Nat → UNode W) (es : List (UEdge W)) : ∀ (l : List Nat) (k : Nat) (p : Option Nat), Chain mem p l → l.length ≤ k →
    search mem es k p = some (l.find? fun a => decide (es = (mem a).edges))
  | [], k, p, h, _ => by
    obtain rfl : p = none := h
    cases k <;> rfl
  | a :: l, k + 1, p, h, hk => by
    obtain ⟨rfl, h⟩ := h
    rw [search, List.find?_cons]
    by_cases he : es = (mem a).edges
    · rw [if_pos he, decide_eq_true he]
    · rw [if_neg he, decide_eq_false he]
      exact search_ok mem es l k _ h (by simpa using hk)

structure Inv (hash : List (UEdge W) → Nat) (s : UTable W) (chain : Nat → Nat → List Nat) (free : List Nat) : Prop where
  ch : ∀ v k, Chain s.mem (s.bucket v k) (chain v k)
  fr : Chain s.mem s.available free
  home : ∀ v k p, p ∈ chain v k → (s.mem p).var = v ∧ hash (s.mem p).edges = k
  lt : ∀ v k p, p ∈ chain v k → p < s.fresh
  ltf : ∀ p ∈ free, p < s.fresh
  nd : ∀ v k, (chain v k).Nodup
  ndf : free.Nodup
  disj : ∀ p ∈ free, ∀ v k, p ∉ chain v k
  uniq : ∀ v k p q, p ∈ chain v k → q ∈ chain v k → (s.mem p).edges = (s.mem q).edges → p = q

variable {hash : List (UEdge W) → Nat} {s : UTable W} {chain : Nat → Nat → List Nat} {free : List Nat}

theorem inv_new (mem : Nat → UNode W) : Inv hash (UTable.new mem) (fun _ _ => []) [] :=
  ⟨fun _ _ => rfl, rfl, by simp, by simp, by simp, by simp, by simp, by simp, by simp⟩

omit [DecidableEq W] in
/-- a node that is in no list -/
def Loose (s : UTable W) (chain : Nat → Nat → List Nat) (free : List Nat) (p : Nat) : Prop :=
  p < s.fresh ∧ p ∉ free ∧ ∀ v k, p ∉ chain v k

theorem getNode_ok (h : Inv hash s chain free) : ∃ p s' free', s.getNode = (p, s') ∧ Inv hash s' chain free' ∧
    Loose s' chain free' p ∧ s'.mem = s.mem := by
  unfold UTable.getNode
  match free, h with
  | [], h =>
    have hf : s.available = none := h.fr
    rw [hf]
    refine ⟨_, _, [], rfl, ⟨h.ch, rfl, h.home,
      fun v k p hp => Nat.lt_succ_of_lt (h.lt v k p hp), by simp, h.nd, by simp, by simp, h.uniq⟩, ⟨Nat.lt_succ_self _, by simp, ?_⟩, rfl⟩
    intro v k hp
    exact absurd (h.lt v k _ hp) (lt_irrefl _)
  | a :: free, h =>
    obtain ⟨hf, hfr⟩ := h.fr
    rw [hf]
    have hnd := List.nodup_cons.1 h.ndf
    exact ⟨a, _, free, rfl, ⟨h.ch, hfr, h.home, h.lt, fun p hp => h.ltf p (List.mem_cons_of_mem _ hp), h.nd, hnd.2,
      fun p hp => h.disj p (List.mem_cons_of_mem _ hp), h.uniq⟩,
      ⟨h.ltf a List.mem_cons_self, hnd.1, h.disj a List.mem_cons_self⟩, rfl⟩

/-- overwriting a loose node -/
theorem inv_update (h : Inv hash s chain free) {p : Nat} (hp : Loose s chain free p) (x : UNode W) :
    Inv hash { s with mem := Function.update s.mem p x } chain free := by
  have e : ∀ v k a, a ∈ chain v k → Function.update s.mem p x a = s.mem a := fun v k a ha =>
    Function.update_of_ne (ne_of_mem_of_not_mem ha (hp.2.2 v k)) _ _
  have ef : ∀ a, a ∈ free → Function.update s.mem p x a = s.mem a := fun a ha =>
    Function.update_of_ne (ne_of_mem_of_not_mem ha hp.2.1) _ _
  refine ⟨fun v k => (h.ch v k).congr fun a ha => congrArg UNode.next (e v k a ha), h.fr.congr fun a ha => congrArg UNode.next (ef a ha), ?_,
    h.lt, h.ltf, h.nd, h.ndf, h.disj, ?_⟩
  · intro v k a ha
    dsimp only
    rw [e v k a ha]
    exact h.home v k a ha
  · intro v k a b ha hb
    dsimp only
    rw [e v k a ha, e v k b hb]
    exact h.uniq v k a b ha hb

theorem returnNode_ok (h : Inv hash s chain free) {p : Nat} (hp : Loose s chain free p) :
    Inv hash (s.returnNode p) chain (p :: free) := by
  have h' := inv_update h hp { s.mem p with next := s.available }
  refine ⟨h'.ch, ⟨rfl, ?_⟩, h'.home, h'.lt, ?_, h'.nd, List.nodup_cons.2 ⟨hp.2.1, h.ndf⟩, ?_, h'.uniq⟩
  · unfold UTable.returnNode
    dsimp only
    rw [Function.update_self]
    exact h'.fr
  · intro a ha
    rcases List.mem_cons.1 ha with rfl | ha
    · exact hp.1
    · exact h.ltf a ha
  · intro a ha
    rcases List.mem_cons.1 ha with rfl | ha
    · exact hp.2.2
    · exact h.disj a ha

theorem length_le_of_lt {l : List Nat} {m : Nat} (hn : l.Nodup) (hl : ∀ a ∈ l, a < m) : l.length ≤ m := by
  have h1 : l.toFinset ⊆ Finset.range m := by
    intro a ha
    rw [Finset.mem_range]
    exact hl a (List.mem_toFinset.1 ha)
  have := Finset.card_le_card h1
  rwa [List.toFinset_card_of_nodup hn, Finset.card_range] at this

theorem search_inv (h : Inv hash s chain free) (es : List (UEdge W)) (v k : Nat) :
    search s.mem es s.fresh (s.bucket v k) = some ((chain v k).find? fun a => decide (es = (s.mem a).edges)) :=
  search_ok _ _ _ _ _ (h.ch v k) (length_le_of_lt (h.nd v k) (h.lt v k))

/-- looking up a node of the table changes nothing -/
theorem lookup_again (h : Inv hash s chain free) {p v k : Nat} (hp : p ∈ chain v k) (w : W) (keep : Bool) :
    s.lookup hash ⟨some p, w⟩ keep = some (⟨some p, w⟩, s) := by
  obtain ⟨hv, hk⟩ := h.home v k p hp
  unfold UTable.lookup
  dsimp only
  rw [search_inv h, hv, hk]
  rcases hf : (chain v k).find? fun a => decide ((s.mem p).edges = (s.mem a).edges) with _ | q
  · have := List.find?_eq_none.1 hf p hp
    simp at this
  · have hq := List.mem_of_find?_eq_some hf
    have he : (s.mem p).edges = (s.mem q).edges := by simpa using List.find?_some hf
    obtain rfl := h.uniq v k p q hp hq he
    dsimp only
    rw [if_neg (by simp)]

/-- looking up a loose node -/
theorem lookup_loose (h : Inv hash s chain free) {p : Nat} (hp : Loose s chain free p) (w : W) :
    ∃ q s' chain' free', s.lookup hash ⟨some p, w⟩ false = some (⟨some q, w⟩, s') ∧ Inv hash s' chain' free' ∧
      q ∈ chain' (s.mem p).var (hash (s.mem p).edges) ∧ (s'.mem q).var = (s.mem p).var ∧ (s'.mem q).edges = (s.mem p).edges ∧
      ∀ v k a, a ∈ chain v k → a ∈ chain' v k ∧ s'.mem a = s.mem a := by
  set v := (s.mem p).var with hv
  set k := hash (s.mem p).edges with hk
  unfold UTable.lookup
  dsimp only
  rw [search_inv h, ← hk, ← hv]
  rcases hf : (chain v k).find? fun a => decide ((s.mem p).edges = (s.mem a).edges) with _ | q
  · dsimp only
    have hnone : ∀ a ∈ chain v k, (s.mem p).edges ≠ (s.mem a).edges := fun a ha => by
      simpa using List.find?_eq_none.1 hf a ha
    have h' := inv_update h hp { s.mem p with next := s.bucket v k }
    have hmem : ∀ v' k' a, a ∈ chain v' k' → Function.update s.mem p { s.mem p with next := s.bucket v k } a = s.mem a :=
      fun v' k' a ha => Function.update_of_ne (ne_of_mem_of_not_mem ha (hp.2.2 v' k')) _ _
    have hc : ∀ v' k', Function.update chain v (Function.update (chain v) k (p :: chain v k)) v' k' =
        if v' = v ∧ k' = k then p :: chain v k else chain v' k' := by
      intro v' k'
      by_cases h1 : v' = v
      · subst h1
        rw [Function.update_self]
        by_cases h2 : k' = k
        · subst h2; rw [Function.update_self, if_pos ⟨rfl, rfl⟩]
        · rw [Function.update_of_ne h2, if_neg (fun c => h2 c.2)]
      · rw [Function.update_of_ne h1, if_neg (fun c => h1 c.1)]
    have hb : ∀ v' k', Function.update s.bucket v (Function.update (s.bucket v) k (some p)) v' k' =
        if v' = v ∧ k' = k then some p else s.bucket v' k' := by
      intro v' k'
      by_cases h1 : v' = v
      · subst h1
        rw [Function.update_self]
        by_cases h2 : k' = k
        · subst h2; rw [Function.update_self, if_pos ⟨rfl, rfl⟩]
        · rw [Function.update_of_ne h2, if_neg (fun c => h2 c.2)]
      · rw [Function.update_of_ne h1, if_neg (fun c => h1 c.1)]
    have hin : ∀ v' k' a, a ∈ Function.update chain v (Function.update (chain v) k (p :: chain v k)) v' k' ↔
        a ∈ chain v' k' ∨ (a = p ∧ v' = v ∧ k' = k) := by
      intro v' k' a
      rw [hc]
      split
      · rename_i hh
        obtain ⟨rfl, rfl⟩ := hh
        rw [List.mem_cons]
        constructor
        · rintro (h | h)
          · exact Or.inr ⟨h, rfl, rfl⟩
          · exact Or.inl h
        · rintro (h | ⟨h, _⟩)
          · exact Or.inr h
          · exact Or.inl h
      · rename_i hh
        constructor
        · exact Or.inl
        · rintro (h | ⟨_, h⟩)
          · exact h
          · exact absurd h hh
    refine ⟨p, _, Function.update chain v (Function.update (chain v) k (p :: chain v k)), free, rfl,
      ⟨?_, h'.fr, ?_, ?_, h.ltf, ?_, h.ndf, ?_, ?_⟩, ?_, ?_, ?_, ?_⟩
    · intro v' k'
      dsimp only
      rw [hc, hb]
      split
      · refine ⟨rfl, ?_⟩
        rw [Function.update_self]
        exact h'.ch v k
      · exact h'.ch v' k'
    · intro v' k' a ha
      rcases (hin v' k' a).1 ha with ha | ⟨rfl, rfl, rfl⟩
      · exact h'.home v' k' a ha
      · dsimp only
        rw [Function.update_self]
        exact ⟨rfl, rfl⟩
    · intro v' k' a ha
      rcases (hin v' k' a).1 ha with ha | ⟨rfl, rfl, rfl⟩
      · exact h.lt v' k' a ha
      · exact hp.1
    · intro v' k'
      rw [hc]
      split
      · exact List.nodup_cons.2 ⟨hp.2.2 v k, h.nd v k⟩
      · exact h.nd v' k'
    · intro a ha v' k' hm
      rcases (hin v' k' a).1 hm with hm | ⟨rfl, rfl, rfl⟩
      · exact h.disj a ha v' k' hm
      · exact hp.2.1 ha
    · intro v' k' a b ha hb
      dsimp only
      rcases (hin v' k' a).1 ha with ha' | ⟨rfl, hy⟩ <;> rcases (hin _ _ b).1 hb with hb' | ⟨rfl, hx⟩
      · exact h'.uniq v' k' a b ha' hb'
      · rw [hx.1, hx.2] at ha'
        rw [Function.update_self, hmem _ _ a ha']
        intro he
        exact absurd he.symm (hnone a ha')
      · rw [hy.1, hy.2] at hb'
        rw [Function.update_self, hmem _ _ b hb']
        intro he
        exact absurd he (hnone b hb')
      · intro _; rfl
    · exact (hin v k p).2 (Or.inr ⟨rfl, rfl, rfl⟩)
    · dsimp only; rw [Function.update_self]
    · dsimp only; rw [Function.update_self]
    · intro v' k' a ha
      exact ⟨(hin v' k' a).2 (Or.inl ha), hmem v' k' a ha⟩
  · dsimp only
    have hq := List.mem_of_find?_eq_some hf
    have he : (s.mem p).edges = (s.mem q).edges := by simpa using List.find?_some hf
    have hpq : p ≠ q := fun e => hp.2.2 v k (e ▸ hq)
    rw [if_pos ⟨hpq, rfl⟩]
    have hm : ∀ a, a ≠ p → (s.returnNode p).mem a = s.mem a := fun a ha => Function.update_of_ne ha _ _
    refine ⟨q, _, chain, p :: free, rfl, returnNode_ok h hp, hq, ?_, ?_, ?_⟩
    · rw [hm q hpq.symm, (h.home v k q hq).1]
    · rw [hm q hpq.symm, he]
    · intro v' k' a ha
      exact ⟨ha, hm a fun e => hp.2.2 v' k' (e ▸ ha)⟩

theorem make_ok (h : Inv hash s chain free) (v : Nat) (es : List (UEdge W)) (w : W) :
    ∃ q s' chain' free', s.make hash v es w = some (⟨some q, w⟩, s') ∧ Inv hash s' chain' free' ∧
      q ∈ chain' v (hash es) ∧ (s'.mem q).var = v ∧ (s'.mem q).edges = es ∧
      ∀ v k a, a ∈ chain v k → a ∈ chain' v k ∧ s'.mem a = s.mem a := by
  obtain ⟨p, s1, free1, hget, h1, hp, hmem⟩ := getNode_ok h
  have h2 := inv_update h1 hp ⟨v, es, (s1.mem p).next⟩
  obtain ⟨q, s', chain', free', hl, h3, hq, hvar, hed, hold⟩ := lookup_loose (p := p) h2 hp w
  dsimp only at hq hvar hed hold
  rw [Function.update_self] at hq hvar hed
  refine ⟨q, s', chain', free', ?_, h3, hq, hvar, hed, ?_⟩
  · unfold UTable.make
    rw [hget]
    exact hl
  · intro v' k' a ha
    obtain ⟨k1, k2⟩ := hold v' k' a ha
    refine ⟨k1, ?_⟩
    rw [k2, Function.update_of_ne (ne_of_mem_of_not_mem ha (hp.2.2 v' k')), hmem]

theorem makeZero_ok (h : Inv hash s chain free) (v : Nat) (es : List (UEdge W)) (cached : Bool) :
    ∃ free', Inv hash (s.makeZero v es cached) chain free' ∧
      ∀ v' k a, a ∈ chain v' k → (s.makeZero v es cached).mem a = s.mem a := by
  obtain ⟨p, s1, free1, hget, h1, hp, hmem⟩ := getNode_ok h
  have h2 := inv_update h1 hp ⟨v, es, (s1.mem p).next⟩
  have hne : ∀ v' k a, a ∈ chain v' k → a ≠ p := fun v' k a ha e => hp.2.2 v' k (e ▸ ha)
  unfold UTable.makeZero
  rw [hget]
  dsimp only
  cases cached
  · refine ⟨_, returnNode_ok (p := p) h2 hp, ?_⟩
    intro v' k a ha
    simp only [Bool.false_eq_true, if_false]
    unfold UTable.returnNode UTable.write
    dsimp only
    rw [Function.update_of_ne (hne v' k a ha), Function.update_of_ne (hne v' k a ha), hmem]
  · refine ⟨free1, h2, ?_⟩
    intro v' k a ha
    rw [if_pos rfl]
    unfold UTable.write
    dsimp only
    rw [Function.update_of_ne (hne v' k a ha), hmem]

theorem used_inv {made : List (Nat × Nat × List (UEdge W))} (h : Used hash s made) : ∃ chain free, Inv hash s chain free ∧
    ∀ p v es, (p, v, es) ∈ made → p ∈ chain v (hash es) ∧ (s.mem p).var = v ∧ (s.mem p).edges = es := by
  induction h with
  | new mem => exact ⟨_, _, inv_new mem, by simp⟩
  | make s s' made v es w p w' _ hm ih =>
    obtain ⟨chain, free, hi, hall⟩ := ih
    obtain ⟨q, s1, chain', free', h1, h2, h3, h4, h5, h6⟩ := make_ok hi v es w
    rw [hm] at h1
    cases h1
    refine ⟨chain', free', h2, ?_⟩
    intro a v' es' ha
    rcases List.mem_cons.1 ha with ha | ha
    · cases ha; exact ⟨h3, h4, h5⟩
    · obtain ⟨k1, k2, k3⟩ := hall a v' es' ha
      obtain ⟨k4, k5⟩ := h6 _ _ _ k1
      exact ⟨k4, by rw [k5]; exact k2, by rw [k5]; exact k3⟩
  | zero s made v es cached _ ih =>
    obtain ⟨chain, free, hi, hall⟩ := ih
    obtain ⟨free', h2, h6⟩ := makeZero_ok hi v es cached
    refine ⟨chain, free', h2, ?_⟩
    intro a v' es' ha
    obtain ⟨k1, k2, k3⟩ := hall a v' es' ha
    have k5 := h6 _ _ _ k1
    exact ⟨k1, by rw [k5]; exact k2, by rw [k5]; exact k3⟩
  | again s s' made p v es w keep e _ hp hl ih =>
    obtain ⟨chain, free, hi, hall⟩ := ih
    obtain ⟨k1, k2, k3⟩ := hall p v es hp
    rw [lookup_again hi k1] at hl
    cases hl
    exact ⟨chain, free, hi, hall⟩

end Qudits.DD
