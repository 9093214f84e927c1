import Verif.Spec.AdaSpec
import Verif.Lemmas.Device
import Mathlib.Algebra.BigOperators.Group.List.Lemmas
/-! # Distances and sensitivities on the energy-level graph -/
namespace Qudits
open Spec LGraph

theorem joined_comm {g : LGraph} {u v : Int} : Spec.Joined g u v ↔ Spec.Joined g v u := by
  have : joins u v = joins v u := by
    funext e
    unfold joins
    rw [Bool.or_comm]
  unfold Spec.Joined edgeData
  rw [this]

/-- every walk can be cut short to a path -/
theorem walk_path {g : LGraph} : ∀ (p : List Int) (a b : Int), p.head? = some a → p.getLast? = some b → p.IsChain (Spec.Joined g) →
    ∃ q, IsPath g a b q ∧ q.length ≤ p.length
  | [], a, b, h, _, _ => by cases h
  | [x], a, b, h1, h2, _ => by
    have h1 : x = a := by simpa using h1
    have h2 : x = b := by simpa using h2
    subst h1; subst h2
    exact ⟨[x], ⟨rfl, rfl, by simp, by simp⟩, le_rfl⟩
  | x :: y :: p, a, b, h1, h2, h3 => by
    have h1 : x = a := by simpa using h1
    subst h1
    rw [List.isChain_cons_cons] at h3
    obtain ⟨q, hq, hl⟩ := walk_path (y :: p) y b rfl (by rw [← h2, List.getLast?_cons_cons]) h3.2
    by_cases hx : x ∈ q
    · obtain ⟨s, t, rfl⟩ := List.append_of_mem hx
      refine ⟨x :: t, ⟨rfl, ?_, (List.isChain_append.1 hq.steps).2.1, (List.nodup_append.1 hq.nodup).2.1⟩, ?_⟩
      · have := hq.last
        rwa [List.getLast?_append_of_ne_nil _ (by simp)] at this
      · simp only [List.length_append, List.length_cons] at hl ⊢
        omega
    · refine ⟨x :: q, ⟨rfl, ?_, ?_, List.nodup_cons.2 ⟨hx, hq.nodup⟩⟩, by simpa using hl⟩
      · have hne : q ≠ [] := by rintro rfl; cases hq.first
        obtain ⟨z, q', rfl⟩ := List.exists_cons_of_ne_nil hne
        rw [List.getLast?_cons_cons]; exact hq.last
      · have hf := hq.first
        cases q with
        | nil => cases hf
        | cons z q' =>
          have hf : z = y := by simpa using hf
          subst hf
          exact List.isChain_cons_cons.2 ⟨h3.1, hq.steps⟩

theorem path_reverse {g : LGraph} {a b : Int} {p : List Int} (h : IsPath g a b p) : IsPath g b a p.reverse where
  first := by rw [List.head?_reverse]; exact h.last
  last := by rw [List.getLast?_reverse]; exact h.first
  steps := by
    rw [List.isChain_reverse]
    exact h.steps.imp fun u v huv => joined_comm.1 huv
  nodup := List.nodup_reverse.2 h.nodup

theorem path_pos {g : LGraph} {a b : Int} {p : List Int} (h : IsPath g a b p) : 1 ≤ p.length := by
  cases p with
  | nil => cases h.first
  | cons => simp

theorem distance_ok {sp : PathFinder} (hsp : FindsShortest sp) {g : LGraph} (hg : Wf g) {a b : Int} (ha : a ∈ names g) (hab : ∃ p, IsPath g a b p) :
    ∃ p, sp g a b = .ok p ∧ IsPath g a b p ∧ g.distanceNodes sp a b = .ok ((p.length - 1 : Nat) : Int) ∧
      ∀ q, IsPath g a b q → p.length ≤ q.length := by
  obtain ⟨p, h1, h2⟩ := hsp.finds g a b hg ha hab
  refine ⟨p, h1, h2, ?_, fun q hq => hsp.shortest g a b p q h1 hq⟩
  have := path_pos h2
  unfold distanceNodes
  rw [h1]
  simp only [bind, Except.bind, pure, Except.pure]
  congr 1
  omega

/-! ### sensitivities -/

/-- the sensitivity of the edge between two nodes, 0 without an edge -/
def sens (es : List LEdge) (u v : Int) : Int := (((es.find? (joins u v)).map fun e => e.2.2).bind fun d => PyDict.get? d "sensitivity").getD 0

def sensE (e : LEdge) : Int := (PyDict.get? e.2.2 "sensitivity").getD 0

theorem sens_cons (e : LEdge) (es : List LEdge) (h : ∀ f ∈ es, ¬ SameEnds e f) (u v : Int) :
    sens (e :: es) u v = (if joins u v e then sensE e else 0) + sens es u v := by
  unfold sens
  rw [List.find?_cons]
  cases hj : joins u v e with
  | false => simp
  | true =>
    have : es.find? (joins u v) = none := by
      rw [List.find?_eq_none]
      intro f hf hjf
      refine h f hf ?_
      have h1 := (joins_iff _ _ _).1 hj
      have h2 := (joins_iff _ _ _).1 hjf
      unfold SameEnds
      rcases h1 with ⟨a, b⟩ | ⟨a, b⟩ <;> rcases h2 with ⟨c, d⟩ | ⟨c, d⟩ <;> simp [a, b, c, d]
    simp [this, sensE]

theorem sum_single {l : List Int} (hl : l.Nodup) {m : Int} (hm : m ∈ l) (k : Int) : (l.map fun x => if x = m then k else 0).sum = k := by
  induction l with
  | nil => cases hm
  | cons x l ih =>
    rw [List.nodup_cons] at hl
    rw [List.map_cons, List.sum_cons]
    by_cases hx : x = m
    · subst hx
      rw [if_pos rfl, List.sum_eq_zero, add_zero]
      intro y hy
      obtain ⟨z, hz, rfl⟩ := List.mem_map.1 hy
      refine if_neg ?_
      rintro rfl
      exact hl.1 hz
    · rw [if_neg hx, zero_add]
      exact ih hl.2 (by simpa [Ne.symm hx] using hm)

theorem joins_other {l : List Int} (hl : l.Nodup) (n : Int) (e : LEdge) (h1 : e.1 ∈ l) (h2 : e.2.1 ∈ l) :
    (l.map fun m => if joins n m e then sensE e else 0).sum = if e.1 == n || e.2.1 == n then sensE e else 0 := by
  have key : ∀ m, joins n m e = true ↔ (e.1 == n || e.2.1 == n) = true ∧ m = (if e.1 == n then e.2.1 else e.1) := by
    intro m
    rw [joins_iff]
    simp only [Bool.or_eq_true, beq_iff_eq]
    by_cases ha : e.1 = n
    · rw [if_pos ha]
      constructor
      · rintro (⟨_, h⟩ | ⟨h, h'⟩)
        · exact ⟨Or.inl ha, h.symm⟩
        · exact ⟨Or.inl ha, by rw [← h, ha, h']⟩
      · rintro ⟨_, h⟩
        exact Or.inl ⟨ha, h.symm⟩
    · rw [if_neg ha]
      constructor
      · rintro (⟨h, _⟩ | ⟨h, h'⟩)
        · exact absurd h ha
        · exact ⟨Or.inr h', h.symm⟩
      · rintro ⟨h | h, h'⟩
        · exact absurd h ha
        · exact Or.inr ⟨h'.symm, h⟩
  cases hc : (e.1 == n || e.2.1 == n) with
  | false =>
    simp only [Bool.false_eq_true, if_false]
    refine List.sum_eq_zero fun y hy => ?_
    obtain ⟨m, _, rfl⟩ := List.mem_map.1 hy
    refine if_neg fun h => ?_
    rw [((key m).1 h).1] at hc
    cases hc
  | true =>
    rw [if_pos rfl]
    refine Eq.trans ?_ (sum_single hl (m := if e.1 == n then e.2.1 else e.1) (by split <;> assumption) (sensE e))
    congr 1
    refine List.map_congr_left fun m _ => if_congr ?_ rfl rfl
    rw [key, hc]
    simp

/-- the edges at a node, one by one, and the neighbours of the node, one by one -/
theorem sens_sum {l : List Int} (hl : l.Nodup) (n : Int) : ∀ es : List LEdge, es.Pairwise (fun e f => ¬ SameEnds e f) →
    (∀ e ∈ es, e.1 ∈ l ∧ e.2.1 ∈ l) →
    ((es.filter fun e => e.1 == n || e.2.1 == n).map sensE).sum = (l.map fun m => sens es n m).sum
  | [], _, _ => by simp [sens]
  | e :: es, hp, hm => by
    rw [List.pairwise_cons] at hp
    have ih := sens_sum hl n es hp.2 fun e he => hm e (by simp [he])
    have : (l.map fun m => sens (e :: es) n m).sum = (l.map fun m => if joins n m e then sensE e else 0).sum + (l.map fun m => sens es n m).sum := by
      rw [← List.sum_map_add]
      congr 1
      exact List.map_congr_left fun m _ => sens_cons e es hp.1 n m
    rw [this, joins_other hl n e (hm e (by simp)).1 (hm e (by simp)).2, ← ih, List.filter_cons]
    split <;> simp

theorem foldlM_sens {g : LGraph} (n : Int) : ∀ (ns : List Int) (acc : Int), (∀ m ∈ ns, ∃ k, g.edgeSensitivity n m = .ok k) →
    ns.foldlM (fun acc m => do
      let k ← g.edgeSensitivity n m
      pure (acc + k)) acc = Except.ok (acc + (ns.map fun m => sens g.edges n m).sum)
  | [], acc, _ => by simp [pure, Except.pure]
  | m :: ns, acc, h => by
    obtain ⟨k, hk⟩ := h m (by simp)
    have hs : sens g.edges n m = k := by
      unfold edgeSensitivity at hk
      unfold sens
      unfold edgeData at hk
      cases hd : (g.edges.find? (joins n m)).map fun e => e.2.2 with
      | none => rw [hd] at hk; cases hk
      | some d =>
        rw [hd] at hk
        simp only [sensitivityOf] at hk
        cases hd' : PyDict.get? d "sensitivity" with
        | none => rw [hd'] at hk; cases hk
        | some k' =>
          rw [hd'] at hk
          injection hk with hk
          simp [hd', hk]
    rw [List.foldlM_cons]
    simp only [hk, bind, Except.bind, pure, Except.pure]
    have := foldlM_sens n ns (acc + k) fun m hm => h m (by simp [hm])
    simp only [bind, Except.bind, pure, Except.pure] at this
    rw [this, List.map_cons, List.sum_cons, hs]
    congr 1
    ring

theorem foldlM_sens_error {g : LGraph} (n : Int) : ∀ (ns : List Int) (acc : Int), (∃ m ∈ ns, g.edgeSensitivity n m = .error .keyError) →
    ns.foldlM (fun acc m => do
      let k ← g.edgeSensitivity n m
      pure (acc + k)) acc = Except.error .keyError
  | [], _, ⟨_, h, _⟩ => by cases h
  | m :: ns, acc, ⟨m', hm', he⟩ => by
    rw [List.foldlM_cons]
    cases hk : g.edgeSensitivity n m with
    | error e =>
      have : e = .keyError := by
        unfold edgeSensitivity sensitivityOf at hk
        split at hk
        · split at hk
          · cases hk
          · injection hk with hk; exact hk.symm
        · injection hk with hk; exact hk.symm
      subst this
      rfl
    | ok k =>
      simp only [bind, Except.bind, pure, Except.pure]
      have := foldlM_sens_error (g := g) n ns (acc + k) ⟨m', by
        rcases List.mem_cons.1 hm' with rfl | h
        · rw [hk] at he; cases he
        · exact h, he⟩
      simpa only [bind, Except.bind, pure, Except.pure] using this

end Qudits
