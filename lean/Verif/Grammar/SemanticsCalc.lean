import Verif.Grammar.Semantics
import Verif.Grammar.FunctorProps

/-!
# Specification: calculating with denotations

Congruence, interchange and transposition laws for the semantics of `Verif.Grammar.Semantics`. No code of the
repository is modelled here.
-/

namespace Lambeq
open Diagram
set_option linter.unusedSectionVars false
set_option linter.unusedSimpArgs false

namespace Diagram
variable {O B : Type} [BoxSig B O]

/-- Composition without the type check. -/
def comp (f g : Diagram O B) : Diagram O B := ⟨f.dom, g.cod, f.layers ++ g.layers⟩

theorem comp_wt {f g : Diagram O B} (hf : f.WT) (hg : g.WT) (h : f.cod = g.dom) : (comp f g).WT := by
  unfold WT at *
  rw [← h] at hg
  exact Chain.append hf hg

end Diagram

namespace Interp
variable {O B R : Type} [BoxSig B O] [CommSemiring R] (I : Interp O B R)

theorem mat_comp' {f g : Diagram O B} (hg : g.WT) (h : f.cod = g.dom) (x : List Nat) {y : List Nat}
    (hy : y ∈ I.idx g.cod) : I.mat (comp f g) x y = ∑ k ∈ I.idx f.cod, I.mat f x k * I.mat g k y := by
  have : I.mat (comp f g) x y = I.run g.layers (I.run f.layers (fun z => if z = x then 1 else 0)) y := by
    simp only [mat, comp, run_append]
  rw [this, I.run_eq_mat hg _ hy, h]
  rfl

variable {I}

theorem SameMap.refl (d : Diagram O B) : I.SameMap d d := ⟨rfl, rfl, fun _ _ _ _ => rfl⟩

theorem SameMap.symm {d e : Diagram O B} (h : I.SameMap d e) : I.SameMap e d :=
  ⟨h.1.symm, h.2.1.symm, fun x hx y hy => (h.2.2 x (h.1 ▸ hx) y (h.2.1 ▸ hy)).symm⟩

theorem SameMap.trans {d e f : Diagram O B} (h : I.SameMap d e) (h' : I.SameMap e f) : I.SameMap d f :=
  ⟨h.1.trans h'.1, h.2.1.trans h'.2.1, fun x hx y hy => (h.2.2 x hx y hy).trans (h'.2.2 x (h.1 ▸ hx) y (h.2.1 ▸ hy))⟩

theorem SameMap.comp {f f' g g' : Diagram O B} (hf : I.SameMap f f') (hg : I.SameMap g g') (w : g.WT) (w' : g'.WT)
    (h : f.cod = g.dom) : I.SameMap (Diagram.comp f g) (Diagram.comp f' g') := by
  refine ⟨hf.1, hg.2.1, fun x hx y hy => ?_⟩
  have h' : f'.cod = g'.dom := by rw [← hf.2.1, h, hg.1]
  have hy' : y ∈ I.idx g.cod := hy
  rw [I.mat_comp' w h x hy', I.mat_comp' w' h' x (hg.2.1 ▸ hy'), ← hf.2.1]
  refine Finset.sum_congr rfl (fun k hk => ?_)
  rw [hf.2.2 x hx k hk, hg.2.2 k (h ▸ hk) y hy']

theorem SameMap.tensor {f f' g g' : Diagram O B} (hf : I.SameMap f f') (hg : I.SameMap g g') (w1 : f.WT) (w1' : f'.WT)
    (w : g.WT) (w' : g'.WT) : I.SameMap (tensor f g) (tensor f' g') := by
  refine ⟨by rw [tensor_dom, tensor_dom, hf.1, hg.1], by rw [tensor_cod, tensor_cod, hf.2.1, hg.2.1], ?_⟩
  intro x hx y hy
  rw [tensor_dom] at hx
  rw [tensor_cod] at hy
  obtain ⟨x1, x2, rfl, hx1, hx2⟩ := I.mem_append hx
  obtain ⟨y1, y2, rfl, hy1, hy2⟩ := I.mem_append hy
  rw [I.mat_tensor w1 w hx1 hx2 hy1 hy2, I.mat_tensor w1' w' (hf.1 ▸ hx1) (hg.1 ▸ hx2) (hf.2.1 ▸ hy1) (hg.2.1 ▸ hy2),
    hf.2.2 _ hx1 _ hy1, hg.2.2 _ hx2 _ hy2]

/-- The interchange law. -/
theorem interchange {f g h k : Diagram O B} (wf : f.WT) (wg : g.WT) (wh : h.WT) (wk : k.WT) (h1 : f.cod = h.dom)
    (h2 : g.cod = k.dom) :
    I.SameMap (Diagram.comp (Diagram.tensor f g) (Diagram.tensor h k))
      (Diagram.tensor (Diagram.comp f h) (Diagram.comp g k)) := by
  refine ⟨by simp [Diagram.comp, tensor_dom], by simp [Diagram.comp, tensor_cod], ?_⟩
  intro x hx y hy
  have hx' : x ∈ I.idx (f.dom ++ g.dom) := by simpa [Diagram.comp, tensor_dom] using hx
  have hy' : y ∈ I.idx (h.cod ++ k.cod) := by simpa [Diagram.comp, tensor_cod] using hy
  obtain ⟨x1, x2, rfl, hx1, hx2⟩ := I.mem_append hx'
  obtain ⟨y1, y2, rfl, hy1, hy2⟩ := I.mem_append hy'
  rw [I.mat_comp' (wh.tensor wk) (by rw [tensor_cod, tensor_dom, h1, h2]) _ (by rw [tensor_cod]; exact hy'), tensor_cod, sum_idx_append,
    I.mat_tensor (comp_wt wf wh h1) (comp_wt wg wk h2) (by exact hx1) (by exact hx2) (by exact hy1) (by exact hy2),
    I.mat_comp' wh h1 _ hy1, I.mat_comp' wk h2 _ hy2, Finset.sum_mul_sum]
  refine Finset.sum_congr rfl (fun u hu => Finset.sum_congr rfl (fun v hv => ?_))
  rw [I.mat_tensor wf wg hx1 hx2 hu hv, I.mat_tensor wh wk (h1 ▸ hu) (h2 ▸ hv) hy1 hy2]
  ring

theorem comp_id_left (f : Diagram O B) : Diagram.comp (Diagram.id f.dom) f = f := by simp [Diagram.comp, Diagram.id]
theorem comp_id_right (f : Diagram O B) : Diagram.comp f (Diagram.id f.cod) = f := by simp [Diagram.comp, Diagram.id]

end Interp

/-! ## Compact interpretations -/

/-- The laws of the usual tensor interpretation of a pregroup diagram: an object and its adjoints have the same
dimension, cups are Kronecker deltas, and the rotated dagger of a box (`box.dagger().l` or `.r`) is its transpose,
with the wires in reverse order on each side. -/
structure Compact {R : Type} [CommSemiring R] (I : Interp Ob Box R) : Prop where
  dim_rot : ∀ z o, I.dim (Ty.rotOb z o) = I.dim o
  cup : ∀ l r rev, (Box.cup l r rev).Valid → ∀ i < I.dim l, ∀ j < I.dim r,
    I.ten (.cup l r rev) [i, j] [] = if i = j then 1 else 0
  transpose : ∀ b : Box, b.Valid → ∀ z : Int, z = 1 ∨ z = -1 → ∀ x ∈ I.idx b.dom, ∀ y ∈ I.idx b.cod,
    I.ten (b.dagger.rotate z) y.reverse x.reverse = I.ten b x y

/-- The tensor interpretation determined by dimensions of the names of the atomic types and by a tensor for every
box with winding number 0: rotating by an odd number reverses the order of the wires on both sides, a dagger
transposes, and the structural boxes are the usual deltas. -/
def stdTen {R : Type} [CommSemiring R] (T : String → Ty → Ty → List Nat → List Nat → R) : Box → List Nat → List Nat → R
  | .gen n d c z, x, y =>
    if z % 2 = 0 then T n (Ty.rotate (-z) d) (Ty.rotate (-z) c) x y
    else T n (Ty.rotate (-z) d) (Ty.rotate (-z) c) x.reverse y.reverse
  | .word n c z, x, y =>
    if z % 2 = 0 then T n [] (Ty.rotate (-z) c) x y else T n [] (Ty.rotate (-z) c) x.reverse y.reverse
  | .cup _ _ _, x, y => if x.reverse = x ∧ y = [] then 1 else 0
  | .cap _ _ _, x, y => if y.reverse = y ∧ x = [] then 1 else 0
  | .swap _ _, x, y => if y = x.reverse then 1 else 0
  | .spider _ _ _, x, y => if ∀ a ∈ x ++ y, ∀ b ∈ x ++ y, a = b then 1 else 0
  | .daggered b, x, y => stdTen T b y x

/-- The tensor interpretation. -/
def stdInterp {R : Type} [CommSemiring R] (dim : String → Nat) (T : String → Ty → Ty → List Nat → List Nat → R) :
    Interp Ob Box R := ⟨fun o => dim o.name, stdTen T⟩

section
variable {R : Type} [CommSemiring R] (T : String → Ty → Ty → List Nat → List Nat → R)

theorem stdTen_rotate (b : Box) (z : Int) (hz : z = 1 ∨ z = -1) (x y : List Nat)
    (hx : x.length = b.dom.length) (hy : y.length = b.cod.length) :
    stdTen T (b.rotate z) x.reverse y.reverse = stdTen T b x y := by
  have hz2 : z % 2 = 1 := by omega
  induction b generalizing x y with
  | gen n d c z0 =>
    simp only [Box.rotate, stdTen, Ty.rotate_rotate]
    have e : -(z0 + z) + z = -z0 := by omega
    have e' : z + -(z0 + z) = -z0 := by omega
    simp only [e, e']
    rcases Int.emod_two_eq_zero_or_one z0 with h | h
    · rw [if_neg (by omega), if_pos h]; simp
    · rw [if_pos (by omega), if_neg (by omega)]
  | word n c z0 =>
    simp only [Box.rotate, stdTen, Ty.rotate_rotate]
    have e : -(z0 + z) + z = -z0 := by omega
    have e' : z + -(z0 + z) = -z0 := by omega
    simp only [e, e']
    rcases Int.emod_two_eq_zero_or_one z0 with h | h
    · rw [if_neg (by omega), if_pos h]; simp
    · rw [if_pos (by omega), if_neg (by omega)]
  | cup l r rev =>
    simp only [Box.rotate, if_pos hz2, stdTen]
    refine if_congr ?_ rfl rfl
    rw [List.reverse_reverse, List.reverse_eq_nil_iff, @eq_comm _ x]
  | cap l r rev =>
    simp only [Box.rotate, if_pos hz2, stdTen]
    refine if_congr ?_ rfl rfl
    rw [List.reverse_reverse, List.reverse_eq_nil_iff, @eq_comm _ y]
  | swap l r =>
    simp only [Box.rotate, if_pos hz2, stdTen]
    refine if_congr ?_ rfl rfl
    rw [List.reverse_reverse, List.reverse_eq_iff]
  | spider t n m =>
    simp only [Box.rotate, stdTen]
    refine if_congr ?_ rfl rfl
    simp
  | daggered b ih =>
    simp only [Box.rotate, stdTen]
    exact ih y x (by simpa [Box.cod] using hy) (by simpa [Box.dom] using hx)

theorem stdTen_dagger (b : Box) (x y : List Nat) (hx : x.length = b.dom.length) (hy : y.length = b.cod.length) :
    stdTen T b.dagger y x = stdTen T b x y := by
  cases b with
  | gen n d c z => rfl
  | word n c z => rfl
  | cup l r rev => simp [Box.dagger, stdTen]
  | cap l r rev => simp [Box.dagger, stdTen]
  | swap l r =>
    simp only [Box.dagger, stdTen]
    refine if_congr ⟨fun h => by simp [h], fun h => by simp [h]⟩ rfl rfl
  | spider t n m =>
    simp only [Box.dagger, stdTen]
    refine if_congr ?_ rfl rfl
    simp only [List.mem_append, or_comm]
  | daggered b => rfl

/-- Every choice of dimensions and tensors gives a compact interpretation. -/
theorem stdInterp_compact (dim : String → Nat) : Compact (stdInterp dim T) where
  dim_rot z o := rfl
  cup l r rev _ i _ j _ := by
    simp only [stdInterp, stdTen]
    refine if_congr ?_ rfl rfl
    simp [eq_comm]
  transpose b _ z hz x hx y hy := by
    have h1 : x.length = b.dom.length := (stdInterp dim T).length_of_mem hx
    have h2 : y.length = b.cod.length := (stdInterp dim T).length_of_mem hy
    have e := Box.dagger_dom_cod b
    show stdTen T (b.dagger.rotate z) y.reverse x.reverse = stdTen T b x y
    rw [stdTen_rotate T b.dagger z hz y x (by rw [e.1, h2]) (by rw [e.2, h1]), stdTen_dagger T b x y h1 h2]

end

/-! ## Transposition of diagrams -/

section
variable {R : Type} [CommSemiring R] {I : Interp Ob Box R}

theorem Compact.mem_reverse (hI : Compact I) {z : Int} (hz : z % 2 = 1) {t : Ty} {y : List Nat} (h : y ∈ I.idx t) :
    y.reverse ∈ I.idx (Ty.rotate z t) := by
  rw [Interp.mem_idx] at *
  rw [Ty.rotate, if_pos hz]
  have : List.Forall₂ (fun o n => n < I.dim o) (t.map (Ty.rotOb z)) y := by
    rw [List.forall₂_map_left_iff]
    simpa only [hI.dim_rot] using h
  simpa [List.map_reverse] using List.rel_reverse this

theorem Compact.sum_reverse (hI : Compact I) {z : Int} (hz : z % 2 = 1) (t : Ty) (f : List Nat → R) :
    ∑ y ∈ I.idx (Ty.rotate z t), f y = ∑ y ∈ I.idx t, f y.reverse := by
  symm
  refine Finset.sum_bij (fun y _ => y.reverse) (fun y hy => hI.mem_reverse hz hy) (fun a _ b _ h => by simpa using h) ?_
    (fun _ _ => rfl)
  intro y hy
  refine ⟨y.reverse, ?_, by simp⟩
  have := hI.mem_reverse (z := -z) (by omega) hy
  rwa [Ty.rotate_rotate, show z + -z = 0 by omega, Ty.rotate_zero] at this

theorem layer_mat (l : GLayer) {xl xb xr yl yb yr : List Nat} (h1 : xl ∈ I.idx l.left) (h2 : xb ∈ I.idx l.box.dom)
    (h3 : xr ∈ I.idx l.right) (k1 : yl ∈ I.idx l.left) (k2 : yb ∈ I.idx l.box.cod) (k3 : yr ∈ I.idx l.right) :
    I.run [l] (fun w => if w = xl ++ (xb ++ xr) then 1 else 0) (yl ++ (yb ++ yr))
      = (if yl = xl then 1 else 0) * (I.ten l.box xb yb * (if yr = xr then 1 else 0)) := by
  have e : [l] = (tensor (Diagram.id l.left) (tensor (ofBox l.box) (Diagram.id l.right)) : GDiagram).layers := by
    simp [tensor_eq, Diagram.id, ofBox, Layer.extend]
  rw [e]
  have := I.mat_tensor (f := (Diagram.id l.left : GDiagram)) (g := tensor (ofBox l.box) (Diagram.id l.right)) (WT.id _)
    ((WT.ofBox _).tensor (WT.id _)) (x1 := xl) (x2 := xb ++ xr) (y1 := yl) (y2 := yb ++ yr) h1
    (by rw [tensor_dom]; exact I.append_mem h2 h3) k1 (by rw [tensor_cod]; exact I.append_mem k2 k3)
  rw [Interp.mat] at this
  rw [this, I.mat_tensor (WT.ofBox _) (WT.id _) (by exact h2) (by exact h3) (by exact k2) (by exact k3), Interp.mat_id, Interp.mat_id,
    I.mat_ofBox _ (by exact h2) (by exact k2)]

/-- The layer of the rotated dagger. -/
def transLayer (z : Int) (l : GLayer) : GLayer := GLayer.rotate z { l with box := l.box.dagger }

theorem transLayer_dom {z : Int} (hz : z = 1 ∨ z = -1) (l : GLayer) : (transLayer z l).dom = Ty.rotate z l.cod
    ∧ (transLayer z l).cod = Ty.rotate z l.dom := by
  have hz2 : z % 2 = 1 := by omega
  have e := Box.dagger_dom_cod l.box
  have r := Box.rotate_dom_cod z l.box.dagger
  have hb : BoxSig.dom (l.box.dagger.rotate z) = Ty.rotate z l.box.cod := r.1.trans (by rw [e.1])
  have hc : BoxSig.cod (l.box.dagger.rotate z) = Ty.rotate z l.box.dom := r.2.trans (by rw [e.2])
  simp only [transLayer, GLayer.rotate, if_pos hz2, Layer.dom, Layer.cod, hb, hc]
  have : ∀ a b c : Ty, Ty.rotate z a ++ Ty.rotate z b ++ Ty.rotate z c = Ty.rotate z (c ++ b ++ a) := by
    intro a b c; simp [Ty.rotate, hz2]
  exact ⟨this _ _ _, this _ _ _⟩

theorem layer_transpose (hI : Compact I) {z : Int} (hz : z = 1 ∨ z = -1) (l : GLayer) (hv : l.box.Valid) {x y : List Nat}
    (hx : x ∈ I.idx l.dom) (hy : y ∈ I.idx l.cod) :
    I.run [transLayer z l] (fun w => if w = y.reverse then 1 else 0) x.reverse
      = I.run [l] (fun w => if w = x then 1 else 0) y := by
  have hz2 : z % 2 = 1 := by omega
  rw [Layer.dom, List.append_assoc] at hx
  rw [Layer.cod, List.append_assoc] at hy
  obtain ⟨xl, x2, rfl, h1, h2⟩ := I.mem_append hx
  obtain ⟨xb, xr, rfl, h2, h3⟩ := I.mem_append h2
  obtain ⟨yl, y2, rfl, k1, k2⟩ := I.mem_append hy
  obtain ⟨yb, yr, rfl, k2, k3⟩ := I.mem_append k2
  have e := Box.dagger_dom_cod l.box
  have r := Box.rotate_dom_cod z l.box.dagger
  rw [layer_mat l h1 h2 h3 k1 k2 k3]
  have h := layer_mat (I := I) (transLayer z l) (xl := yr.reverse) (xb := yb.reverse) (xr := yl.reverse) (yl := xr.reverse)
    (yb := xb.reverse) (yr := xl.reverse)
    (by simp only [transLayer, GLayer.rotate, if_pos hz2]; exact hI.mem_reverse hz2 k3)
    (by simp only [transLayer, GLayer.rotate, if_pos hz2]; rw [r.1, e.1]; exact hI.mem_reverse hz2 k2)
    (by simp only [transLayer, GLayer.rotate, if_pos hz2]; exact hI.mem_reverse hz2 k1)
    (by simp only [transLayer, GLayer.rotate, if_pos hz2]; exact hI.mem_reverse hz2 h3)
    (by simp only [transLayer, GLayer.rotate, if_pos hz2]; rw [r.2, e.2]; exact hI.mem_reverse hz2 h2)
    (by simp only [transLayer, GLayer.rotate, if_pos hz2]; exact hI.mem_reverse hz2 h1)
  simp only [List.reverse_append, List.append_assoc]
  rw [h]
  have ht : I.ten (transLayer z l).box yb.reverse xb.reverse = I.ten l.box xb yb := by
    simp only [transLayer, GLayer.rotate, if_pos hz2]
    exact hI.transpose _ hv z hz xb h2 yb k2
  rw [ht]
  have c1 : (if xr.reverse = yr.reverse then (1 : R) else 0) = if yr = xr then 1 else 0 :=
    if_congr (by rw [List.reverse_inj, eq_comm]) rfl rfl
  have c2 : (if xl.reverse = yl.reverse then (1 : R) else 0) = if yl = xl then 1 else 0 :=
    if_congr (by rw [List.reverse_inj, eq_comm]) rfl rfl
  rw [c1, c2]
  ring

theorem chain_trans {z : Int} (hz : z = 1 ∨ z = -1) {a c : Ty} {ls : List GLayer} (h : Chain a ls c) :
    Chain (Ty.rotate z c) (ls.reverse.map (transLayer z)) (Ty.rotate z a) := by
  induction ls generalizing a with
  | nil => obtain rfl : a = c := h; rfl
  | cons l ls ih =>
    obtain ⟨rfl, h2⟩ := h
    rw [List.reverse_cons, List.map_append]
    refine Chain.append (ih h2) ?_
    exact ⟨(transLayer_dom hz l).1, (transLayer_dom hz l).2⟩

theorem run_transpose (hI : Compact I) {z : Int} (hz : z = 1 ∨ z = -1) {a c : Ty} {ls : List GLayer} (h : Chain a ls c)
    (hv : ∀ l ∈ ls, l.box.Valid) {x y : List Nat} (hx : x ∈ I.idx a) (hy : y ∈ I.idx c) :
    I.run (ls.reverse.map (transLayer z)) (fun w => if w = y.reverse then 1 else 0) x.reverse
      = I.run ls (fun w => if w = x then 1 else 0) y := by
  have hz2 : z % 2 = 1 := by omega
  induction ls generalizing a x with
  | nil =>
    simp only [List.reverse_nil, List.map_nil, Interp.run]
    exact if_congr (by rw [List.reverse_inj, eq_comm]) rfl rfl
  | cons l ls ih =>
    obtain ⟨rfl, h2⟩ := h
    have w2 : (⟨l.cod, c, ls⟩ : GDiagram).WT := h2
    have w1 : (⟨l.dom, l.cod, [l]⟩ : GDiagram).WT := ⟨rfl, rfl⟩
    have t2 : (⟨Ty.rotate z c, Ty.rotate z l.cod, ls.reverse.map (transLayer z)⟩ : GDiagram).WT := chain_trans hz h2
    have t1 : (⟨Ty.rotate z l.cod, Ty.rotate z l.dom, [transLayer z l]⟩ : GDiagram).WT :=
      ⟨(transLayer_dom hz l).1, (transLayer_dom hz l).2⟩
    have e1 := I.mat_comp' w2 (f := ⟨l.dom, l.cod, [l]⟩) rfl x hy
    have e2 := I.mat_comp' t1 (f := ⟨Ty.rotate z c, Ty.rotate z l.cod, ls.reverse.map (transLayer z)⟩) rfl y.reverse
      (y := x.reverse) (hI.mem_reverse hz2 hx)
    simp only [Interp.mat, Diagram.comp, List.cons_append, List.nil_append] at e1 e2
    rw [List.reverse_cons, List.map_append, List.map_cons, List.map_nil, e1, e2, hI.sum_reverse hz2]
    refine Finset.sum_congr rfl (fun k hk => ?_)
    rw [ih h2 (fun m hm => hv m (by simp [hm])) hk, layer_transpose hI hz l (hv l (by simp)) hx hk, mul_comm]

/-- The rotated dagger of a diagram is its transpose. -/
theorem mat_transpose (hI : Compact I) {z : Int} (hz : z = 1 ∨ z = -1) {d : GDiagram} (hd : d.WT) (hv : d.Valid)
    {x y : List Nat} (hx : x ∈ I.idx d.dom) (hy : y ∈ I.idx d.cod) :
    I.mat (GDiagram.rotate z d.dagger) y.reverse x.reverse = I.mat d x y := by
  have e : (GDiagram.rotate z d.dagger).layers = d.layers.reverse.map (transLayer z) := by
    simp only [GDiagram.rotate, GDiagram.dagger, (daggerWith_dom_cod Box.dagger d hd).2.2, List.map_map]
    rfl
  rw [Interp.mat, e]
  exact run_transpose hI hz hd hv hx hy

end
end Lambeq
