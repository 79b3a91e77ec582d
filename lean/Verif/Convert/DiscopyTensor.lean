import Verif.Convert.DiscopyProps
import Verif.Tensor.Category

/-!
# Conversion of tensor diagrams to and from DisCoPy (C107)

Models `lambeq/backend/converters/discopy.py`: `ty_l2d` and `ty_d2l` on dimensions (126-128, 156-158), `convert_tensor_l2d` (259-291), `convert_tensor_d2l` (294-332), `to_discopy` (450-497) and
`from_discopy` (500-556) for tensor diagrams.

DisCoPy is modelled as in `Verif.Convert.Discopy`; the dimensions of its `Dim` are the `inside` of it. Its cups and caps raise an exception unless both dimensions are equal (assumption).
-/

namespace Lambeq
namespace Discopy
open Diagram
set_option linter.unusedSimpArgs false

/-- Boxes of `discopy.tensor` (assumption). -/
inductive DTBox (R : Type)
  | box (name : String) (dom cod : List Nat) (data : Option (NdArray R)) (z : Int) (dag : Bool)
  | cup (left right : Nat)
  | cap (left right : Nat)
  | swap (left right : Nat)
  | spider (nIn nOut : Nat) (typ : Nat)
  deriving DecidableEq

namespace DTBox
variable {R : Type}
/-- `box.dom` (assumption). -/
def dom : DTBox R → List Nat
  | box _ d _ _ _ _ => d
  | cup l r => [l, r]
  | cap _ _ => []
  | swap l r => [l, r]
  | spider n _ t => List.replicate n t
/-- `box.cod` (assumption). -/
def cod : DTBox R → List Nat
  | box _ _ c _ _ _ => c
  | cup _ _ => []
  | cap l r => [l, r]
  | swap l r => [r, l]
  | spider _ m t => List.replicate m t
/-- `box.is_dagger` (assumption). -/
def isDagger : DTBox R → Bool
  | box _ _ _ _ _ g => g
  | _ => false
/-- `box.dagger()` (assumption). -/
def dagger : DTBox R → DTBox R
  | box n d c a z g => box n c d a z (!g)
  | cup l r => cap l r
  | cap l r => cup l r
  | swap l r => swap r l
  | spider n m t => spider m n t
instance : BoxSig (DTBox R) Nat := ⟨dom, cod⟩
/-- Cups and caps that DisCoPy can have made. -/
def Ok : DTBox R → Prop
  | cup l r => l = r
  | cap l r => l = r
  | _ => True
end DTBox

variable {R : Type}

/-- discopy.py:111-133 on a `Dim`: the winding number of a dimension is 0. -/
def dimL2D (t : List Nat) : List Nat := t.flatMap (fun n => [n])
/-- discopy.py:141-158 on a `Dim`; `lt.Dim` drops ones. -/
def dimD2L (t : List Nat) : List Nat := t.flatMap (fun n : Nat => mkDim [(n : Int)])

/-- discopy.py:259-291 -/
def tboxL2D : TBox R → Except PyErr (DTBox R)
  | .daggered b => match tboxL2D b with
    | .error e => .error e
    | .ok b => .ok b.dagger
  | .cap l r => if l = r then .ok (.cap l r) else .error .valueError
  | .cup l r => if l = r then .ok (.cup l r) else .error .valueError
  | .swap l r => .ok (.swap l r)
  | .spider t n m => .ok (.spider n m t)
  | .gen n d c a z => .ok (.box n (dimL2D d) (dimL2D c) a z false)

/-- discopy.py:299-327: a box that is not daggered. `is_reversed` is ignored by cups and caps of this category (tensor.py:447, 487), which check that their dimensions are equal. -/
def tplainD2L : DTBox R → Except PyErr (TBox R)
  | .cap l r => if l = r then .ok (.cap l r) else .error .valueError
  | .cup l r => if l = r then .ok (.cup l r) else .error .valueError
  | .swap l r => .ok (.swap l r)
  | .spider n m t => .ok (.spider t (List.replicate n t).length (List.replicate m t).length)
  | .box n d c a z _ => .ok (.gen n (dimD2L d) (dimD2L c) a z)

/-- discopy.py:294-332 -/
def tboxD2L (b : DTBox R) : Except PyErr (TBox R) :=
  if b.isDagger = true then
    match tplainD2L b.dagger with
    | .error e => .error e
    | .ok b => .ok b.dagger
  else tplainD2L b

/-- discopy.py:450-497 -/
def tensorToDiscopy (d : Diagram Nat (TBox R)) : Except PyErr (Diagram Nat (DTBox R)) := convLayers dimL2D (fun b => asDiagram (tboxL2D b)) (id (dimL2D d.dom)) d.layers
/-- discopy.py:500-556 -/
def tensorFromDiscopy (d : Diagram Nat (DTBox R)) : Except PyErr (Diagram Nat (TBox R)) := convLayers dimD2L (fun b => asDiagram (tboxD2L b)) (id (dimD2L d.dom)) d.layers

/-! ## Proofs -/

/-- Every dimension of a `Dim` is above one. -/
def Dims (t : List Nat) : Prop := ∀ n ∈ t, 1 < n

/-- Boxes as the constructors and `dagger()` make them. -/
def TOk : TBox R → Prop
  | .cup l r => l = r
  | .cap l r => l = r
  | .daggered (.gen _ _ _ _ _) => True
  | .daggered _ => False
  | _ => True

/-- The names and types of a diagram of tensors, and that cups, caps and daggers are as their constructors make them. -/
def TDiagOk (d : Diagram Nat (TBox R)) : Prop := Dims d.dom ∧ ∀ l ∈ d.layers, TOk l.box ∧ Dims l.dom ∧ Dims l.cod

theorem dimL2D_eq (t : List Nat) : dimL2D t = t := by simp [dimL2D]
theorem dimD2L_eq {t : List Nat} (h : Dims t) : dimD2L t = t := by
  induction t with
  | nil => rfl
  | cons n t ih =>
    have h1 : 1 < n := h n (by simp)
    have : mkDim [(n : Int)] = [n] := by simp [mkDim, h1]
    rw [dimD2L, List.flatMap_cons, this]
    have := ih (fun m hm => h m (List.mem_cons_of_mem _ hm))
    rw [dimD2L] at this
    rw [this]; rfl
theorem dimD2L_append (a b : List Nat) : dimD2L (a ++ b) = dimD2L a ++ dimD2L b := by simp [dimD2L]
theorem dimL2D_append (a b : List Nat) : dimL2D (a ++ b) = dimL2D a ++ dimL2D b := by simp [dimL2D]

/-- The DisCoPy box with the same data. -/
def timage : TBox R → DTBox R
  | .gen n d c a z => .box n d c a z false
  | .cup l r => .cup l r
  | .cap l r => .cap l r
  | .swap l r => .swap l r
  | .spider t n m => .spider n m t
  | .daggered b => (timage b).dagger

theorem timage_sig (b : TBox R) : (timage b).dom = b.dom ∧ (timage b).cod = b.cod := by
  induction b with
  | gen | cup | cap | swap | spider => exact ⟨rfl, rfl⟩
  | daggered b ih =>
    have : ∀ b : DTBox R, b.dagger.dom = b.cod ∧ b.dagger.cod = b.dom := by intro b; cases b <;> exact ⟨rfl, rfl⟩
    rw [timage, (this _).1, (this _).2]; exact ⟨ih.2, ih.1⟩

theorem tboxL2D_eq {b : TBox R} (h : TOk b) : tboxL2D b = .ok (timage b) := by
  cases b with
  | gen n d c a z => rw [tboxL2D, dimL2D_eq, dimL2D_eq]; rfl
  | swap | spider => rfl
  | cup l r => rw [tboxL2D, if_pos (show l = r from h)]; rfl
  | cap l r => rw [tboxL2D, if_pos (show l = r from h)]; rfl
  | daggered b => cases b with
    | gen n d c a z => rw [tboxL2D, tboxL2D, dimL2D_eq, dimL2D_eq]; rfl
    | _ => exact h.elim

theorem tboxD2L_image {b : TBox R} (h : TOk b) (hd : Dims b.dom) (hc : Dims b.cod) : tboxD2L (timage b) = .ok b := by
  cases b with
  | gen n d c a z =>
    have hd : Dims d := hd
    have hc : Dims c := hc
    rw [tboxD2L, if_neg (by simp [timage, DTBox.isDagger]), timage, tplainD2L, dimD2L_eq hd, dimD2L_eq hc]
  | swap => rfl
  | spider t n m => simp [tboxD2L, timage, DTBox.isDagger, tplainD2L]
  | cup l r => rw [tboxD2L, if_neg (by simp [timage, DTBox.isDagger]), timage, tplainD2L, if_pos (show l = r from h)]
  | cap l r => rw [tboxD2L, if_neg (by simp [timage, DTBox.isDagger]), timage, tplainD2L, if_pos (show l = r from h)]
  | daggered b => cases b with
    | gen n d c a z =>
      have hd : Dims c := hd
      have hc : Dims d := hc
      rw [tboxD2L, if_pos (by rfl)]
      show (match tplainD2L (.box n d c a z (!!false)) with | .error e => Except.error e | .ok b => Except.ok (TBox.dagger b)) = _
      rw [tplainD2L, dimD2L_eq hd, dimD2L_eq hc]; rfl
    | _ => exact h.elim

theorem dims_append {a b : List Nat} : Dims (a ++ b) ↔ Dims a ∧ Dims b := by
  simp only [Dims, List.mem_append, or_imp, forall_and]

/-- C107: a tensor diagram becomes the DisCoPy diagram with the same types, the same wires and boxes with the same data, and comes back unchanged. -/
theorem C107_tensor {d : Diagram Nat (TBox R)} (w : d.WT) (h : TDiagOk d) : ∃ D, tensorToDiscopy d = .ok D ∧ D.WT ∧ D.dom = d.dom ∧ D.cod = d.cod ∧
    List.Forall₂ (fun (l : Layer Nat (TBox R)) (l' : Layer Nat (DTBox R)) => l'.left = l.left ∧ l'.right = l.right ∧ l'.dom = l.dom ∧ l'.cod = l.cod ∧
      (∀ n a b c z, l.box = .gen n a b c z → l'.box = .box n a b c z false) ∧ (∀ n a b c z, l.box = .daggered (.gen n a b c z) → l'.box = .box n b a c z true)) d.layers D.layers ∧
    tensorFromDiscopy D = .ok d := by
  have h1 : tensorToDiscopy d = _ := convLayers_eq dimL2D_append timage d.layers
    (fun l hl => ⟨by rw [tboxL2D_eq (h.2 l hl).1]; rfl, by rw [dimL2D_eq]; exact (timage_sig l.box).1, by rw [dimL2D_eq]; exact (timage_sig l.box).2⟩) w (id (dimL2D d.dom)) rfl
  simp only [dimL2D_eq] at h1
  have wt := chain_map (ty := dimL2D) dimL2D_append timage d.layers
    (fun l _ => ⟨by rw [dimL2D_eq]; exact (timage_sig l.box).1, by rw [dimL2D_eq]; exact (timage_sig l.box).2⟩) w
  simp only [dimL2D_eq] at wt
  refine ⟨_, h1, wt, rfl, rfl, ?_, ?_⟩
  · show List.Forall₂ _ d.layers (d.layers.map _)
    rw [List.forall₂_map_right_iff, List.forall₂_same]
    intro l _
    refine ⟨rfl, rfl, ?_, ?_, ?_, ?_⟩
    · exact congrArg (fun x => l.left ++ x ++ l.right) (timage_sig l.box).1
    · exact congrArg (fun x => l.left ++ x ++ l.right) (timage_sig l.box).2
    · intro n a b c z e; simp only [e]; rfl
    · intro n a b c z e; simp only [e]; rfl
  · have hall : ∀ l ∈ d.layers, Dims l.left ∧ Dims l.box.dom ∧ Dims l.box.cod ∧ Dims l.right := by
      intro l hl
      obtain ⟨_, g1, g2⟩ := h.2 l hl
      simp only [Layer.dom, Layer.cod, dims_append] at g1 g2
      exact ⟨g1.1.1, g1.1.2, g2.1.2, g1.2⟩
    -- go back box by box
    have back : ∀ (ls : List (Layer Nat (TBox R))) (a c : List Nat) (E : Diagram Nat (TBox R)), (∀ l ∈ ls, l ∈ d.layers) → Chain a ls c → E.cod = a →
        convLayers dimD2L (fun b => asDiagram (tboxD2L b)) E (ls.map (fun l => (⟨l.left, timage l.box, l.right⟩ : Layer Nat (DTBox R)))) = .ok ⟨E.dom, c, E.layers ++ ls⟩ := by
      intro ls
      induction ls with
      | nil => intro a c E _ hc he; obtain rfl : a = c := hc; simp [convLayers, ← he]
      | cons l ls ih =>
        intro a c E hm hc he
        obtain ⟨g1, g2, g3, g4⟩ := hall l (hm l (by simp))
        rw [List.map_cons, convLayers]
        simp only [tboxD2L_image (h.2 l (hm l (by simp))).1 g2 g3, asDiagram, dimD2L_eq g1, dimD2L_eq g4]
        have hT : tensor (tensor (id l.left) (ofBox l.box)) (id l.right) = (⟨l.dom, l.cod, [l]⟩ : Diagram Nat (TBox R)) := by
          simp [tensor_eq, Diagram.id, ofBox, Layer.dom, Layer.cod, Layer.extend]
        rw [hT, andThen_eq_ok (by rw [he, ← hc.1])]
        have := ih l.cod c ⟨E.dom, l.cod, E.layers ++ [l]⟩ (fun x hx => hm x (List.mem_cons_of_mem _ hx)) hc.2 rfl
        rw [List.append_assoc] at this
        exact this
    have := back d.layers d.dom d.cod (id d.dom) (fun _ h => h) w rfl
    rw [tensorFromDiscopy]
    simp only [Diagram.id, dimD2L_eq h.1, List.nil_append] at this ⊢
    exact this

private def exT : Diagram Nat (TBox ℤ) :=
  ⟨[2], [3, 2], [⟨[], .gen "f" [2] [3, 2] (some ⟨[2, 3, 2], [1, 2, 3, 4, 5, 6, 7, 8, 9, 10, 11, 12]⟩) 0, []⟩, ⟨[], .swap 3 2, []⟩, ⟨[2], .cap 2 2, [3]⟩, ⟨[], .spider 2 2 0, [2, 3]⟩,
    ⟨[2], .daggered (.gen "g" [2] [3] none 1), []⟩, ⟨[], .cup 2 2, []⟩, ⟨[], .cap 3 3, []⟩, ⟨[3], .daggered (.gen "g" [2] [3] none 1), []⟩]⟩
example : exT.WT := by decide
example : TDiagOk exT := by
  refine ⟨by unfold Dims; decide, ?_⟩
  intro l hl
  simp only [exT, List.mem_cons, List.not_mem_nil, or_false] at hl
  rcases hl with rfl | rfl | rfl | rfl | rfl | rfl | rfl | rfl <;> refine ⟨by trivial, ?_, ?_⟩ <;> unfold Dims <;> decide

end Discopy
end Lambeq
