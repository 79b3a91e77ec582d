import Verif.Grammar.SnakeProps
import Verif.Grammar.SemanticsCalc
import Mathlib.Algebra.Star.BigOperators

/-!
# Hermitian interpretations of grammar diagrams

The usual meaning of a pregroup diagram over the complex numbers: adjoint types have the same dimension, daggers are conjugate transposes, rotations by an
odd number conjugate and read the wires from right to left, and cups, caps, swaps and spiders are the usual deltas. It satisfies the laws `Compact` and
`SnakeEqs` under which the rewriting functions of lambeq were shown to preserve the meaning.
-/

namespace Lambeq
open Diagram GDiagram

section
variable {R : Type} [CommSemiring R] [StarRing R]

/-- `T b` is the tensor of the box or word `b` of winding number 0; `dim` is the dimension of an atomic type, by name. -/
def hermTen (dim : String → Nat) (T : Box → List Nat → List Nat → R) : Box → List Nat → List Nat → R
  | .gen n d c z, x, y =>
    if z % 2 = 0 then T (.gen n (Ty.rotate (-z) d) (Ty.rotate (-z) c) 0) x y
    else star (T (.gen n (Ty.rotate (-z) d) (Ty.rotate (-z) c) 0) x.reverse y.reverse)
  | .word n c z, x, y =>
    if z % 2 = 0 then T (.word n (Ty.rotate (-z) c) 0) x y else star (T (.word n (Ty.rotate (-z) c) 0) x.reverse y.reverse)
  | .cup _ _ _, x, y => if x.reverse = x ∧ y = [] then 1 else 0
  | .cap _ _ _, x, y => if y.reverse = y ∧ x = [] then 1 else 0
  | .swap _ _, x, y => if y = x.reverse then 1 else 0
  | .spider t _ _, x, y => ∑ b ∈ Finset.range (dim t.name), if ∀ c ∈ x ++ y, c = b then 1 else 0
  | .daggered b, x, y => star (hermTen dim T b y x)

def hermInterp (dim : String → Nat) (T : Box → List Nat → List Nat → R) : Interp Ob Box R := ⟨fun o => dim o.name, hermTen dim T⟩

variable (dim : String → Nat) (T : Box → List Nat → List Nat → R)

theorem star_ite_one_zero (P : Prop) [Decidable P] : star (if P then (1 : R) else 0) = if P then 1 else 0 := by split_ifs <;> simp

theorem hermTen_rotate (b : Box) (z : Int) (hz : z = 1 ∨ z = -1) (x y : List Nat) :
    hermTen dim T (b.rotate z) x.reverse y.reverse = star (hermTen dim T b x y) := by
  have hz2 : z % 2 = 1 := by omega
  induction b generalizing x y with
  | gen n d c z0 =>
    simp only [Box.rotate, hermTen, Ty.rotate_rotate]
    have e : -(z0 + z) + z = -z0 := by omega
    have e' : z + -(z0 + z) = -z0 := by omega
    simp only [e, e']
    rcases Int.emod_two_eq_zero_or_one z0 with h | h
    · rw [if_neg (by omega), if_pos h]; simp
    · rw [if_pos (by omega), if_neg (by omega), star_star]
  | word n c z0 =>
    simp only [Box.rotate, hermTen, Ty.rotate_rotate]
    have e : -(z0 + z) + z = -z0 := by omega
    have e' : z + -(z0 + z) = -z0 := by omega
    simp only [e, e']
    rcases Int.emod_two_eq_zero_or_one z0 with h | h
    · rw [if_neg (by omega), if_pos h]; simp
    · rw [if_pos (by omega), if_neg (by omega), star_star]
  | cup l r rev =>
    simp only [Box.rotate, if_pos hz2, hermTen, star_ite_one_zero]
    refine if_congr ?_ rfl rfl
    rw [List.reverse_reverse, List.reverse_eq_nil_iff, @eq_comm _ x]
  | cap l r rev =>
    simp only [Box.rotate, if_pos hz2, hermTen, star_ite_one_zero]
    refine if_congr ?_ rfl rfl
    rw [List.reverse_reverse, List.reverse_eq_nil_iff, @eq_comm _ y]
  | swap l r =>
    simp only [Box.rotate, if_pos hz2, hermTen, star_ite_one_zero]
    refine if_congr ?_ rfl rfl
    rw [List.reverse_reverse, List.reverse_eq_iff]
  | spider t n m =>
    simp only [Box.rotate, hermTen, star_sum, star_ite_one_zero, Ty.rotOb]
    refine Finset.sum_congr rfl (fun b _ => if_congr ?_ rfl rfl)
    simp
  | daggered b ih =>
    simp only [Box.rotate, hermTen]
    rw [ih y x]

theorem hermTen_dagger (b : Box) (x y : List Nat) : hermTen dim T b.dagger y x = star (hermTen dim T b x y) := by
  cases b with
  | gen n d c z => rfl
  | word n c z => rfl
  | cup l r rev => simp [Box.dagger, hermTen, star_ite_one_zero]
  | cap l r rev => simp [Box.dagger, hermTen, star_ite_one_zero]
  | swap l r =>
    simp only [Box.dagger, hermTen, star_ite_one_zero]
    refine if_congr ⟨fun h => by simp [h], fun h => by simp [h]⟩ rfl rfl
  | spider t n m =>
    simp only [Box.dagger, hermTen, star_sum, star_ite_one_zero]
    refine Finset.sum_congr rfl (fun b _ => if_congr ?_ rfl rfl)
    simp only [List.mem_append, or_comm]
  | daggered b => simp [Box.dagger, hermTen]

/-- Hermitian interpretations are compact. -/
theorem hermInterp_compact : Compact (hermInterp dim T) where
  dim_rot z o := rfl
  cup l r rev _ i _ j _ := by
    simp only [hermInterp, hermTen]
    refine if_congr ?_ rfl rfl
    simp [eq_comm]
  transpose b _ z hz x _ y _ := by
    show hermTen dim T (b.dagger.rotate z) y.reverse x.reverse = hermTen dim T b x y
    rw [hermTen_rotate dim T b.dagger z hz y x, hermTen_dagger, star_star]

/-- Hermitian interpretations satisfy the snake equations. -/
theorem hermInterp_snakeEqs : SnakeEqs (hermInterp dim T) := by
  intro a b rev hv
  have hab : dim a.name = dim b.name := by
    cases rev <;> simp [Box.Valid, Box.capAdjoint, Ty.r, Ty.l, Ty.rotate, Ty.rotOb] at hv <;> rw [hv]
  have h1 : ∀ q k, (hermInterp dim T).ten (.cap a b rev) [] [q, k] = if q = k then 1 else 0 := by
    intro q k
    simp only [hermInterp, hermTen]
    exact if_congr (by simp [eq_comm]) rfl rfl
  have h2 : ∀ p q, (hermInterp dim T).ten (.cup b a rev) [p, q] [] = if p = q then 1 else 0 := by
    intro q k
    simp only [hermInterp, hermTen]
    exact if_congr (by simp [eq_comm]) rfl rfl
  refine ⟨fun p hp k _ => ?_, fun p hp k _ => ?_⟩
  · have hp' : p < dim b.name := hp
    simp only [h1, h2]
    show ∑ q ∈ Finset.range (dim a.name), _ = _
    rw [hab, Finset.sum_eq_single p]
    · simp
    · intro q _ hq; simp [Ne.symm hq]
    · intro h; exact absurd (Finset.mem_range.2 hp') h
  · have hp' : p < dim a.name := hp
    simp only [h1, h2]
    show ∑ q ∈ Finset.range (dim b.name), _ = _
    rw [← hab, Finset.sum_eq_single p]
    · simp [eq_comm]
    · intro q _ hq; simp [hq]
    · intro h; exact absurd (Finset.mem_range.2 hp') h

end
end Lambeq
