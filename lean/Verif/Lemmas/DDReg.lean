import Verif.Lemmas.DDGate
import Verif.Props.TnsimProps
/- Diagrams over a register given by its line dimensions. -/
namespace Qudits.DD
open Spec Classical Tnsim

variable {n : Nat} {d : Fin n → Nat} {H : Hashes}

theorem regs_length (d : Fin n → Nat) : (regs d).length = n := by
  unfold regs; simp

theorem regs_reverse (d : Fin n → Nat) : (regs d).reverse = List.ofFn d := List.reverse_reverse _

theorem regs_getD (d : Fin n → Nat) (i : Fin n) : (regs d).reverse.getD i 0 = d i := by
  rw [regs_reverse]
  simp [List.getD]

theorem top_length (x : Reg d) : (top x).length = n := by
  unfold top; simp

theorem levels_reverse {ds xs : List Nat} (h : Levels ds xs) : Levels ds.reverse xs.reverse := List.rel_reverse h

theorem levels_top (x : Reg d) : Levels (regs d) (top x) := levels_reverse (levels_ofFn d x)

theorem top_injective : Function.Injective (top : Reg d → List Nat) := by
  intro x y h
  have h' : (List.ofFn fun i => (x i : Nat)) = List.ofFn fun i => (y i : Nat) := List.reverse_injective h
  have := List.ofFn_injective h'
  funext i
  exact Fin.ext (congrFun this i)

theorem top_surjective {p : List Nat} (h : Levels (regs d) p) : ∃ x : Reg d, top x = p := by
  have h1 : Levels (List.ofFn d) p.reverse := by
    have := levels_reverse h
    rwa [regs_reverse] at this
  have hlen : p.reverse.length = n := by
    have := levels_len h1
    simpa using this
  refine ⟨fun i => ⟨p.reverse.getD i 0, ?_⟩, ?_⟩
  · have hi : (i : Nat) < p.reverse.length := by omega
    have := List.Forall₂.get h1 (i := i) hi (by simp)
    simp only [List.get_eq_getElem, List.getElem_ofFn] at this
    rw [List.getD, List.getElem?_eq_getElem hi]
    exact this
  · unfold top
    rw [List.reverse_eq_iff]
    apply List.ext_getElem
    · simpa using hlen.symm
    · intro i h1 h2
      simp only [List.getElem_ofFn, List.getD, List.getElem?_eq_getElem h2]
      rfl

theorem lsum_regs (d : Fin n → Nat) (f : List Nat → ℂ) : lsum (regs d) f = ∑ y : Reg d, f (top y) := by
  rw [lsum_eq]
  symm
  apply Finset.sum_of_injOn (fun y : Reg d => top y)
  · intro a _ b _ h
    exact top_injective h
  · intro y _
    simp only [Finset.mem_coe, List.mem_toFinset, itProduct_mem]
    exact levels_top y
  · intro a ha hn
    rw [List.mem_toFinset, itProduct_mem] at ha
    obtain ⟨x, hx⟩ := top_surjective ha
    exact absurd ⟨x, Finset.mem_coe.2 (Finset.mem_univ _), hx⟩ hn
  · intro y _
    rfl

theorem levelAt_top (x : Reg d) (i : Fin n) : levelAt (top x) i = x i := by
  unfold levelAt top
  rw [List.reverse_reverse]
  simp [List.getD]

theorem agree_top (q : Fin n) (x y : Reg d) : Agree q (top x) (top y) ↔ ∀ i, i ≠ q → x i = y i := by
  rw [agree_iff (by rw [top_length, top_length]), top_length]
  constructor
  · intro h i hi
    have := h i i.isLt (fun h => hi (Fin.ext h))
    rw [levelAt_top, levelAt_top] at this
    exact Fin.ext this
  · intro h r hr hne
    have := h ⟨r, hr⟩ (fun h => hne (congrArg Fin.val h))
    have h1 := levelAt_top x ⟨r, hr⟩
    have h2 := levelAt_top y ⟨r, hr⟩
    rw [this] at h1
    exact h1.trans h2.symm

theorem shape_top {q : Fin n} {e : Edge (regs d)} (h : ActsOnLine q (matOf d e)) : Shape q (regs d) e := by
  intro xs ys hx hy hn
  obtain ⟨x, rfl⟩ := top_surjective hx
  obtain ⟨y, rfl⟩ := top_surjective hy
  apply h x y
  by_contra hno
  apply hn
  rw [agree_top]
  intro i hi
  by_contra hne
  exact hno ⟨i, hi, hne⟩

/-! ### reachable tables are sound -/

theorem reachable_sound {t : Tables} (h : Reachable H t) : Sound t := by
  induction h with
  | new => exact sound_empty
  | add k ds x y r t t' _ hx hy heq ih => exact ((add2_ok H k ds x y hx hy t ih).1 r t' heq).1
  | mul k ds x y r t t' _ hx hy heq ih => exact ((multiply_ok H k ds x y hx hy t ih).1 r t' heq).1
  | adj ds x r t t' _ hx heq ih => exact ((conjugateTranspose_ok H ds x hx t ih).1 r t' heq).1

theorem levels_ones : ∀ ds : List Nat, Levels (ds.map (cols .vec)) (ds.map fun _ => 0)
  | [] => List.Forall₂.nil
  | _ :: ds => List.Forall₂.cons (by change 0 < 1; omega) (levels_ones ds)

theorem gpath_vec : ∀ (ds xs : List Nat), xs.length = ds.length → gpath .vec ds xs (ds.map fun _ => 0) = xs
  | [], [], _ => rfl
  | [], _ :: _, h => by cases h
  | _ :: _, [], h => by cases h
  | d :: ds, x :: xs, h => by
    rw [List.map_cons, gpath, gpath_vec ds xs (by simpa using h)]
    change (1 * x + 0) :: xs = x :: xs
    rw [one_mul, Nat.add_zero]

end Qudits.DD
