import Verif.Rewrite.RewriterProps
import Verif.Grammar.SemanticsCalc

/-!
# Specification: the meaning of a diagram in which boxes are replaced by diagrams

No code of the repository is modelled here.
-/

namespace Lambeq
open Diagram
set_option linter.unusedSectionVars false
namespace Interp
variable {O B R : Type} [BoxSig B O] [CommSemiring R]

theorem idx_of_dim {I J : Interp O B R} (h : I.dim = J.dim) (t : List O) : I.idx t = J.idx t := by
  induction t with
  | nil => rfl
  | cons o t ih => simp only [idx, ih, h]

theorem run_extend_both (I : Interp O B R) (l r : List O) {p : Diagram O B} (hp : p.WT) (v : List Nat → R) {y1 y y2 : List Nat} (h1 : y1.length = l.length)
    (hy : y ∈ I.idx p.cod) (hy2 : y2 ∈ I.idx r) :
    I.run (p.layers.map (Layer.extend l r)) v (y1 ++ (y ++ y2)) = ∑ k ∈ I.idx p.dom, v (y1 ++ (k ++ y2)) * I.mat p k y := by
  have e : p.layers.map (Layer.extend l r) = (p.layers.map (Layer.extend [] r)).map (Layer.extend l []) := by
    rw [List.map_map]
    refine List.map_congr_left (fun x _ => ?_)
    simp [Layer.extend]
  have hw : Chain p.dom p.layers p.cod := hp
  have hc := hw.extend [] r
  rw [e, I.run_extend_left l hc v (by simpa using I.append_mem hy hy2) h1, I.run_extend_right r hw _ hy y2, I.run_eq_mat hp _ hy]

/-- Replacing every box of a diagram by a diagram with the tensor of the box. -/
theorem mat_subst {I J : Interp O B R} (hd : I.dim = J.dim) {a c : List O} {ls : List (Layer O B)} (hc : Chain a ls c) (parts : List (Diagram O B))
    (h : List.Forall₂ (fun (l : Layer O B) p => p.WT ∧ p.dom = BoxSig.dom l.box ∧ p.cod = BoxSig.cod l.box ∧
      ∀ x ∈ I.idx p.dom, ∀ y ∈ I.idx p.cod, I.mat p x y = J.ten l.box x y) ls parts) (v : List Nat → R) :
    ∀ y ∈ I.idx c, I.run (List.zipWith (fun (l : Layer O B) (p : Diagram O B) => p.layers.map (Layer.extend l.left l.right)) ls parts).flatten v y =
      J.run ls v y := by
  induction h generalizing a v with
  | nil => intro y _; rfl
  | @cons l p ls parts hp hrest ih =>
    intro y hy
    obtain ⟨ha, hc'⟩ := hc
    rw [List.zipWith_cons_cons, List.flatten_cons, run_append, ih hc' _ y hy, run]
    refine J.run_congr hc' (fun z hz => ?_) y (by rw [← idx_of_dim hd]; exact hy)
    rw [← idx_of_dim hd, Layer.cod, List.append_assoc] at hz
    obtain ⟨z1, z2, rfl, hz1, hz2⟩ := I.mem_append hz
    obtain ⟨z3, z4, rfl, hz3, hz4⟩ := I.mem_append hz2
    obtain ⟨h1, h2, h3, h4⟩ := hp
    rw [← h3] at hz3
    rw [I.run_extend_both l.left l.right h1 v (I.length_of_mem hz1) hz3 hz4, J.act_split l v z4 (I.length_of_mem hz1)
      (by rw [I.length_of_mem hz3, h3]), h2, idx_of_dim hd]
    refine Finset.sum_congr rfl (fun k hk => ?_)
    rw [h4 k (by rw [h2, idx_of_dim hd]; exact hk) z3 hz3]

end Interp
end Lambeq
