import Verif.Grammar.DiagramProps
import Mathlib.Algebra.BigOperators.Group.Finset.Basic
import Mathlib.Algebra.BigOperators.Ring.Finset
import Mathlib.Algebra.BigOperators.Group.Finset.Sigma
import Mathlib.Tactic.Ring

/-!
# Specification: the linear map denoted by a diagram

An interpretation gives every atomic object a finite dimension and every box a tensor with entries in a
commutative semiring. A diagram then denotes a matrix. This file is a specification: it models no code of the
repository except that `lambeq.backend.tensor.Diagram.eval` contracts the same tensors along the same wires.
The lemmas `mat_id`, `mat_ofBox`, `mat_comp` and `mat_tensor` check that it is the usual semantics.
-/

namespace Lambeq
open Diagram
set_option linter.unusedSectionVars false

/-- Dimensions of objects and tensors of boxes: `ten b i o` is the entry at inputs `i` and outputs `o`. -/
structure Interp (O B R : Type) where
  dim : O → Nat
  ten : B → List Nat → List Nat → R

namespace Interp
variable {O B R : Type} [BoxSig B O] [CommSemiring R] (I : Interp O B R)

/-- The basis of a type: all lists of basis indices, one for each atom. -/
def idx : List O → Finset (List Nat)
  | [] => {[]}
  | o :: t => (Finset.range (I.dim o) ×ˢ idx t).image (fun p => p.1 :: p.2)

theorem mem_idx (t : List O) (y : List Nat) : y ∈ I.idx t ↔ List.Forall₂ (fun o n => n < I.dim o) t y := by
  induction t generalizing y with
  | nil => simp [idx]
  | cons o t ih =>
    simp only [idx, Finset.mem_image, Finset.mem_product, Finset.mem_range, Prod.exists]
    constructor
    · rintro ⟨a, b, ⟨h1, h2⟩, rfl⟩
      exact .cons h1 ((ih b).1 h2)
    · intro h
      cases h with
      | cons h1 h2 => exact ⟨_, _, ⟨h1, (ih _).2 h2⟩, rfl⟩

theorem length_of_mem {t : List O} {y : List Nat} (h : y ∈ I.idx t) : y.length = t.length :=
  ((I.mem_idx t y).1 h).length_eq.symm

theorem mem_append {a b : List O} {y : List Nat} (h : y ∈ I.idx (a ++ b)) :
    ∃ u v, y = u ++ v ∧ u ∈ I.idx a ∧ v ∈ I.idx b := by
  induction a generalizing y with
  | nil => exact ⟨[], y, rfl, by simp [idx], h⟩
  | cons o a ih =>
    rw [mem_idx] at h
    rw [List.cons_append] at h
    cases h with
    | @cons _ n _ ys h1 h2 =>
      obtain ⟨u, v, rfl, hu, hv⟩ := ih ((I.mem_idx _ _).2 h2)
      exact ⟨n :: u, v, rfl, (I.mem_idx _ _).2 (.cons h1 ((I.mem_idx _ _).1 hu)), hv⟩

theorem append_mem {a b : List O} {u v : List Nat} (hu : u ∈ I.idx a) (hv : v ∈ I.idx b) :
    u ++ v ∈ I.idx (a ++ b) := by
  rw [mem_idx] at *
  exact List.rel_append hu hv

theorem sum_idx_cons (o : O) (t : List O) (f : List Nat → R) :
    ∑ y ∈ I.idx (o :: t), f y = ∑ n ∈ Finset.range (I.dim o), ∑ y ∈ I.idx t, f (n :: y) := by
  rw [idx, Finset.sum_image, Finset.sum_product]
  rintro ⟨a, b⟩ _ ⟨c, d⟩ _ h
  simpa using h

theorem sum_idx_append (a b : List O) (f : List Nat → R) :
    ∑ y ∈ I.idx (a ++ b), f y = ∑ u ∈ I.idx a, ∑ v ∈ I.idx b, f (u ++ v) := by
  induction a generalizing f with
  | nil => simp [idx]
  | cons o a ih =>
    rw [List.cons_append, sum_idx_cons, sum_idx_cons]
    exact Finset.sum_congr rfl (fun n _ => ih (fun y => f (n :: y)))

/-- The action of a layer `left @ box @ right` on a vector `v` over the basis of its domain: contract the wires
of the box with its tensor, leave the other wires alone. -/
def act (l : Layer O B) (v : List Nat → R) (y : List Nat) : R :=
  let a := l.left.length
  let c := (BoxSig.cod l.box).length
  ∑ i ∈ I.idx (BoxSig.dom l.box), v (y.take a ++ i ++ y.drop (a + c)) * I.ten l.box i ((y.drop a).take c)

/-- The action of a list of layers, top to bottom. -/
def run : List (Layer O B) → (List Nat → R) → List Nat → R
  | [], v => v
  | l :: ls, v => run ls (I.act l v)

/-- The matrix denoted by a diagram: entry at row `x` (basis of `dom`) and column `y` (basis of `cod`). -/
def mat (d : Diagram O B) (x y : List Nat) : R := I.run d.layers (fun z => if z = x then 1 else 0) y

/-- Two diagrams denote the same matrix. -/
def SameMap (d d' : Diagram O B) : Prop :=
  d.dom = d'.dom ∧ d.cod = d'.cod ∧ ∀ x ∈ I.idx d.dom, ∀ y ∈ I.idx d.cod, I.mat d x y = I.mat d' x y

theorem act_split (l : Layer O B) (v : List Nat → R) {yl c : List Nat} (yr : List Nat)
    (h1 : yl.length = l.left.length) (h2 : c.length = (BoxSig.cod l.box).length) :
    I.act l v (yl ++ (c ++ yr)) = ∑ i ∈ I.idx (BoxSig.dom l.box), v (yl ++ (i ++ yr)) * I.ten l.box i c := by
  simp only [act, ← h1, ← h2]
  refine Finset.sum_congr rfl (fun i _ => ?_)
  have e1 : (yl ++ (c ++ yr)).take yl.length = yl := by simp
  have e2 : (yl ++ (c ++ yr)).drop (yl.length + c.length) = yr := by
    rw [← List.append_assoc, ← List.length_append, List.drop_left]
  have e3 : ((yl ++ (c ++ yr)).drop yl.length).take c.length = c := by simp
  rw [e1, e2, e3, List.append_assoc]

theorem run_append (a b : List (Layer O B)) (v : List Nat → R) : I.run (a ++ b) v = I.run b (I.run a v) := by
  induction a generalizing v with
  | nil => rfl
  | cons l a ih => exact ih _

/-- Vectors that agree on the basis of the domain are mapped to vectors that agree on the basis of the codomain. -/
theorem act_congr (l : Layer O B) {v w : List Nat → R} (h : ∀ y ∈ I.idx l.dom, v y = w y) :
    ∀ y ∈ I.idx l.cod, I.act l v y = I.act l w y := by
  intro y hy
  rw [Layer.cod, List.append_assoc] at hy
  obtain ⟨yl, y2, rfl, h1, h2⟩ := I.mem_append hy
  obtain ⟨c, yr, rfl, h3, h4⟩ := I.mem_append h2
  rw [act_split _ _ _ _ (I.length_of_mem h1) (I.length_of_mem h3),
    act_split _ _ _ _ (I.length_of_mem h1) (I.length_of_mem h3)]
  refine Finset.sum_congr rfl (fun i hi => ?_)
  rw [h]
  rw [Layer.dom, List.append_assoc]
  exact I.append_mem h1 (I.append_mem hi h4)

theorem run_congr {a c : List O} {ls : List (Layer O B)} (hc : Chain a ls c) {v w : List Nat → R}
    (h : ∀ y ∈ I.idx a, v y = w y) : ∀ y ∈ I.idx c, I.run ls v y = I.run ls w y := by
  induction ls generalizing a v w with
  | nil => obtain rfl : a = c := hc; exact h
  | cons l ls ih =>
    obtain ⟨h1, h2⟩ := hc
    subst h1
    exact ih h2 (I.act_congr l h)

/-- The exchange law. -/
theorem act_exchange (l1 m r : List O) (b0 b1 : B) (v : List Nat → R) (y : List Nat)
    (hy : y ∈ I.idx (l1 ++ (BoxSig.cod b1 ++ (m ++ (BoxSig.cod b0 ++ r))))) :
    I.act ⟨l1, b1, m ++ (BoxSig.cod b0 ++ r)⟩ (I.act ⟨l1 ++ (BoxSig.dom b1 ++ m), b0, r⟩ v) y =
    I.act ⟨l1 ++ (BoxSig.cod b1 ++ m), b0, r⟩ (I.act ⟨l1, b1, m ++ (BoxSig.dom b0 ++ r)⟩ v) y := by
  obtain ⟨yl, y2, rfl, h1, h2⟩ := I.mem_append hy
  obtain ⟨c1, y3, rfl, h3, h4⟩ := I.mem_append h2
  obtain ⟨ym, y4, rfl, h5, h6⟩ := I.mem_append h4
  obtain ⟨c0, yr, rfl, h7, h8⟩ := I.mem_append h6
  rw [act_split _ _ _ _ (I.length_of_mem h1) (I.length_of_mem h3)]
  have e : yl ++ (c1 ++ (ym ++ (c0 ++ yr))) = (yl ++ (c1 ++ ym)) ++ (c0 ++ yr) := by simp
  rw [e, act_split _ _ _ _ (by simp [I.length_of_mem h1, I.length_of_mem h3, I.length_of_mem h5])
    (I.length_of_mem h7)]
  have hL : ∀ i1 ∈ I.idx (BoxSig.dom b1),
      I.act ⟨l1 ++ (BoxSig.dom b1 ++ m), b0, r⟩ v (yl ++ (i1 ++ (ym ++ (c0 ++ yr)))) * I.ten b1 i1 c1
      = ∑ i0 ∈ I.idx (BoxSig.dom b0),
          v (yl ++ (i1 ++ (ym ++ (i0 ++ yr)))) * I.ten b0 i0 c0 * I.ten b1 i1 c1 := by
    intro i1 hi
    have e : yl ++ (i1 ++ (ym ++ (c0 ++ yr))) = (yl ++ (i1 ++ ym)) ++ (c0 ++ yr) := by simp
    rw [e, act_split _ _ _ _ (by simp [I.length_of_mem h1, I.length_of_mem hi, I.length_of_mem h5])
      (I.length_of_mem h7), Finset.sum_mul]
    simp
  have hR : ∀ i0 ∈ I.idx (BoxSig.dom b0),
      I.act ⟨l1, b1, m ++ (BoxSig.dom b0 ++ r)⟩ v ((yl ++ (c1 ++ ym)) ++ (i0 ++ yr)) * I.ten b0 i0 c0
      = ∑ i1 ∈ I.idx (BoxSig.dom b1),
          v (yl ++ (i1 ++ (ym ++ (i0 ++ yr)))) * I.ten b0 i0 c0 * I.ten b1 i1 c1 := by
    intro i0 hi
    have e : (yl ++ (c1 ++ ym)) ++ (i0 ++ yr) = yl ++ (c1 ++ (ym ++ (i0 ++ yr))) := by simp
    rw [e, act_split _ _ _ _ (I.length_of_mem h1) (I.length_of_mem h3), Finset.sum_mul]
    exact Finset.sum_congr rfl (fun i1 _ => by ring)
  rw [Finset.sum_congr rfl hL, Finset.sum_congr rfl hR, Finset.sum_comm]

/-! ### The semantics is the usual one -/

theorem mat_id (t : List O) (x y : List Nat) : I.mat (Diagram.id t) x y = if y = x then 1 else 0 := rfl

theorem mat_ofBox (b : B) {x y : List Nat} (hx : x ∈ I.idx (BoxSig.dom b)) (hy : y ∈ I.idx (BoxSig.cod b)) :
    I.mat (ofBox b) x y = I.ten b x y := by
  have := I.act_split ⟨[], b, []⟩ (fun z => if z = x then (1 : R) else 0) (yl := []) (c := y) [] rfl
    (I.length_of_mem hy)
  simp only [List.nil_append, List.append_nil] at this
  rw [mat, ofBox, run, run, this]
  simp [Finset.sum_ite_eq', hx]

theorem run_linear (ls : List (Layer O B)) {ι : Type} (s : Finset ι) (c : ι → R) (f : ι → List Nat → R) (y : List Nat) :
    I.run ls (fun z => ∑ k ∈ s, c k * f k z) y = ∑ k ∈ s, c k * I.run ls (f k) y := by
  induction ls generalizing f with
  | nil => rfl
  | cons l ls ih =>
    rw [run]
    have : I.act l (fun z => ∑ k ∈ s, c k * f k z) = fun z => ∑ k ∈ s, c k * I.act l (f k) z := by
      funext z
      simp only [act, Finset.sum_mul, Finset.mul_sum]
      rw [Finset.sum_comm]
      exact Finset.sum_congr rfl (fun k _ => Finset.sum_congr rfl (fun i _ => by ring))
    rw [this, ih]
    rfl

/-- A vector is the combination of basis vectors. -/
theorem expand (t : List O) (v : List Nat → R) {z : List Nat} (hz : z ∈ I.idx t) :
    v z = ∑ k ∈ I.idx t, v k * (if z = k then 1 else 0) := by
  simp [Finset.sum_ite_eq, hz]

theorem run_eq_mat {d : Diagram O B} (h : d.WT) (v : List Nat → R) {y : List Nat} (hy : y ∈ I.idx d.cod) :
    I.run d.layers v y = ∑ k ∈ I.idx d.dom, v k * I.mat d k y := by
  rw [I.run_congr h (w := fun z => ∑ k ∈ I.idx d.dom, v k * (if z = k then 1 else 0))
    (fun z hz => I.expand d.dom v hz) y hy, run_linear]
  rfl

/-- Composition of diagrams is matrix multiplication. -/
theorem mat_comp [DecidableEq O] {f g h : Diagram O B} (hg : g.WT) (hc : andThen f g = .ok h) (x : List Nat) {y : List Nat}
    (hy : y ∈ I.idx g.cod) : I.mat h x y = ∑ k ∈ I.idx f.cod, I.mat f x k * I.mat g k y := by
  obtain ⟨h1, rfl⟩ := andThen_ok_iff.1 hc
  have : I.mat (⟨f.dom, g.cod, f.layers ++ g.layers⟩ : Diagram O B) x y
      = I.run g.layers (I.run f.layers (fun z => if z = x then 1 else 0)) y := by
    simp only [mat, run_append]
  rw [this, I.run_eq_mat hg _ hy, h1]
  rfl

theorem run_extend_right (r : List O) {a c : List O} {ls : List (Layer O B)} (hc : Chain a ls c) (v : List Nat → R)
    {y : List Nat} (hy : y ∈ I.idx c) (y2 : List Nat) :
    I.run (ls.map (Layer.extend [] r)) v (y ++ y2) = I.run ls (fun z => v (z ++ y2)) y := by
  induction ls generalizing a v with
  | nil => rfl
  | cons l ls ih =>
    obtain ⟨h1, h2⟩ := hc
    rw [List.map_cons, run, run, ih h2]
    refine I.run_congr h2 (fun z hz => ?_) y hy
    rw [Layer.cod, List.append_assoc] at hz
    obtain ⟨yl, y3, rfl, h1, h3⟩ := I.mem_append hz
    obtain ⟨c, yr, rfl, h4, h5⟩ := I.mem_append h3
    rw [act_split _ _ _ _ (I.length_of_mem h1) (I.length_of_mem h4), List.append_assoc, List.append_assoc,
      act_split _ _ _ _ (by simp [Layer.extend, I.length_of_mem h1]) (by simp [Layer.extend, I.length_of_mem h4])]
    simp [Layer.extend]

theorem run_extend_left (t : List O) {a c : List O} {ls : List (Layer O B)} (hc : Chain a ls c) (v : List Nat → R)
    {y : List Nat} (hy : y ∈ I.idx c) {y1 : List Nat} (h : y1.length = t.length) :
    I.run (ls.map (Layer.extend t [])) v (y1 ++ y) = I.run ls (fun z => v (y1 ++ z)) y := by
  induction ls generalizing a v with
  | nil => rfl
  | cons l ls ih =>
    obtain ⟨h1, h2⟩ := hc
    rw [List.map_cons, run, run, ih h2]
    refine I.run_congr h2 (fun z hz => ?_) y hy
    rw [Layer.cod, List.append_assoc] at hz
    obtain ⟨yl, y3, rfl, h1, h3⟩ := I.mem_append hz
    obtain ⟨c, yr, rfl, h4, h5⟩ := I.mem_append h3
    rw [act_split _ _ _ _ (I.length_of_mem h1) (I.length_of_mem h4), ← List.append_assoc,
      act_split _ _ _ _ (by simp [Layer.extend, I.length_of_mem h1, h]) (by simp [Layer.extend, I.length_of_mem h4])]
    simp [Layer.extend]

/-- Tensor of diagrams is the Kronecker product. -/
theorem mat_tensor {f g : Diagram O B} (hf : f.WT) (hg : g.WT) {x1 x2 y1 y2 : List Nat}
    (hx1 : x1 ∈ I.idx f.dom) (hx2 : x2 ∈ I.idx g.dom)
    (hy1 : y1 ∈ I.idx f.cod) (hy2 : y2 ∈ I.idx g.cod) :
    I.mat (tensor f g) (x1 ++ x2) (y1 ++ y2) = I.mat f x1 y1 * I.mat g x2 y2 := by
  rw [mat, tensor_layers, run_append, I.run_extend_left f.cod hg _ hy2 (I.length_of_mem hy1)]
  rw [I.run_congr hg (w := fun z => ∑ k ∈ ({()} : Finset Unit), I.mat f x1 y1 * (if z = x2 then 1 else 0)) ?_ y2 hy2]
  · rw [I.run_linear]
    simp [mat]
  · intro z hz
    rw [I.run_extend_right g.dom hf _ hy1 z]
    rw [I.run_congr hf (w := fun w => ∑ k ∈ ({()} : Finset Unit),
      (if z = x2 then 1 else 0) * (if w = x1 then 1 else 0)) ?_ y1 hy1]
    · rw [I.run_linear]
      simp [mat]
    · intro w hw
      have : w ++ z = x1 ++ x2 ↔ w = x1 ∧ z = x2 := by
        constructor
        · intro h
          exact List.append_inj h (by rw [I.length_of_mem hw, I.length_of_mem hx1])
        · rintro ⟨rfl, rfl⟩; rfl
      by_cases h1 : w = x1 <;> by_cases h2 : z = x2 <;> simp [h1, h2, this]

end Interp
end Lambeq
