import Verif.Convert.DiscopyProps

/-!
# C107: diagrams survive the conversion to DisCoPy and back
-/

namespace Lambeq
namespace Discopy
open Diagram
set_option linter.unusedSimpArgs false

theorem toDiscopy_eq {d : GDiagram} (w : d.WT) (v : GDiagram.Valid d) :
    toDiscopy d = .ok ⟨tyL2D d.dom, tyL2D d.cod, d.layers.map (fun l => ⟨tyL2D l.left, imageBox l.box, tyL2D l.right⟩)⟩ :=
  convLayers_eq tyL2D_append imageBox d.layers (fun l hl => ⟨by rw [boxL2D_eq (v l hl)]; rfl, imageBox_dom_cod l.box⟩) w (id (tyL2D d.dom)) rfl

theorem fromDiscopy_eq {D : DDiagram} (w : D.WT) (v : ∀ l ∈ D.layers, l.box.Ok) :
    fromDiscopy D = .ok ⟨tyD2L D.dom, tyD2L D.cod, D.layers.map (fun l => ⟨tyD2L l.left, preBox l.box, tyD2L l.right⟩)⟩ :=
  convLayers_eq tyD2L_append preBox D.layers (fun l hl => ⟨by rw [boxD2L_eq (v l hl)]; rfl, pre_dom_cod (v l hl)⟩) w (id (tyD2L D.dom)) rfl

theorem image_ok {b : Box} (h : b.Valid) (s : b.Simple) : (imageBox b).Ok := by
  cases b with
  | gen | word | swap | spider => trivial
  | cup l r v => exact adjoint_of (cup_adj h)
  | cap l r v => exact adjoint_of (cap_adj h)
  | daggered b => cases b <;> first | trivial | exact s.elim

/-- The same object of DisCoPy: same name, same winding number. -/
def sameTy (t : Ty) (t' : List DOb) : Prop := t'.map (fun o => (o.name, o.z)) = t.map (fun o => (o.name, o.z))

theorem same_tyL2D (t : Ty) : sameTy t (tyL2D t) := by rw [sameTy, tyL2D_eq, List.map_map]; rfl

theorem same_length {t : Ty} {t' : List DOb} (h : sameTy t t') : t'.length = t.length := by simpa using congrArg List.length h

/-- The same object. -/
def sameOb (o : Ob) (o' : DOb) : Prop := (o'.name, o'.z) = (o.name, o.z)

/-- The same box of DisCoPy: same kind, same name, same types, same winding number, daggered or not. -/
inductive SameBox : Box → DBox → Prop
  | box {n d c z d' c'} : sameTy d d' → sameTy c c' → SameBox (.gen n d c z) (.box n d' c' z false)
  | word {n c z c'} : sameTy c c' → SameBox (.word n c z) (.word n [] c' z false)
  | cup {l r v l' r'} : sameOb l l' → sameOb r r' → SameBox (.cup l r v) (.cup l' r')
  | cap {l r v l' r'} : sameOb l l' → sameOb r r' → SameBox (.cap l r v) (.cap l' r')
  | swap {l r l' r'} : sameOb l l' → sameOb r r' → SameBox (.swap l r) (.swap l' r')
  | spider {t n m t'} : sameOb t t' → SameBox (.spider t n m) (.spider n m t')
  | daggered {b b'} : SameBox b b' → SameBox (.daggered b) b'.dagger

theorem sameOb_obL2D (o : Ob) : sameOb o (obL2D o) := by rw [sameOb, obL2D_eq]

theorem sameBox_image (b : Box) : SameBox b (imageBox b) := by
  induction b with
  | gen n d c z => exact .box (same_tyL2D _) (same_tyL2D _)
  | word n c z => exact .word (same_tyL2D _)
  | cup l r v => exact .cup (sameOb_obL2D _) (sameOb_obL2D _)
  | cap l r v => exact .cap (sameOb_obL2D _) (sameOb_obL2D _)
  | swap l r => exact .swap (sameOb_obL2D _) (sameOb_obL2D _)
  | spider t n m => exact .spider (sameOb_obL2D _)
  | daggered b ih => exact .daggered ih

/-- C107: `to_discopy` succeeds, and the result is well-typed and has the same types, and the same boxes at the same places. -/
theorem C107_same {d : GDiagram} (w : d.WT) (v : GDiagram.Valid d) : ∃ D, toDiscopy d = .ok D ∧ D.WT ∧ sameTy d.dom D.dom ∧ sameTy d.cod D.cod ∧ D.offsets = d.offsets ∧
    List.Forall₂ (fun (b : Box) (b' : DBox) => SameBox b b' ∧ sameTy b.dom b'.dom ∧ sameTy b.cod b'.cod) d.boxes D.boxes := by
  refine ⟨_, toDiscopy_eq w v, ?_, same_tyL2D _, same_tyL2D _, ?_, ?_⟩
  · exact chain_map tyL2D_append imageBox d.layers (fun l _ => imageBox_dom_cod l.box) w
  · simp [offsets, Function.comp_def, tyL2D_eq]
  · simp only [boxes, List.map_map]
    rw [List.forall₂_map_left_iff, List.forall₂_map_right_iff, List.forall₂_same]
    intro l _
    exact ⟨sameBox_image l.box, by rw [Function.comp, (imageBox_dom_cod l.box).1]; exact same_tyL2D _, by rw [Function.comp, (imageBox_dom_cod l.box).2]; exact same_tyL2D _⟩

/-- C107: converting to DisCoPy and back gives the same diagram. -/
theorem C107_roundtrip {d : GDiagram} (w : d.WT) (v : GDiagram.Valid d) (s : ∀ l ∈ d.layers, l.box.Simple) : ∃ D, toDiscopy d = .ok D ∧ fromDiscopy D = .ok d := by
  obtain ⟨D, h, wD, _⟩ := C107_same w v
  refine ⟨D, h, ?_⟩
  rw [toDiscopy_eq w v] at h
  injection h with h
  subst h
  have back : fromDiscopy ⟨tyL2D d.dom, tyL2D d.cod, d.layers.map (fun l => ⟨tyL2D l.left, imageBox l.box, tyL2D l.right⟩)⟩ = _ := fromDiscopy_eq wD (by
    intro l hl
    obtain ⟨l', hl', rfl⟩ := List.mem_map.1 hl
    exact image_ok (v l' hl') (s l' hl'))
  rw [back]
  simp only [tyD2L_tyL2D, List.map_map]
  congr 1
  refine Diagram.ext rfl rfl ?_
  show List.map _ d.layers = d.layers
  conv_rhs => rw [← List.map_id d.layers]
  refine List.map_congr_left fun l hl => ?_
  have hb := boxD2L_image (v l hl) (s l hl)
  rw [boxD2L_eq (image_ok (v l hl) (s l hl))] at hb
  injection hb with hb
  simp [tyD2L_tyL2D, hb]

/-- C107: converting from DisCoPy and back gives the same diagram, which is a valid diagram in between. -/
theorem C107_roundtrip_back {D : DDiagram} (w : D.WT) (v : ∀ l ∈ D.layers, l.box.Ok) : ∃ d, fromDiscopy D = .ok d ∧ d.WT ∧ GDiagram.Valid d ∧ toDiscopy d = .ok D := by
  refine ⟨_, fromDiscopy_eq w v, ?_⟩
  have wt : (⟨tyD2L D.dom, tyD2L D.cod, D.layers.map (fun l => ⟨tyD2L l.left, preBox l.box, tyD2L l.right⟩)⟩ : GDiagram).WT :=
    chain_map tyD2L_append preBox D.layers (fun l hl => pre_dom_cod (v l hl)) w
  have va : GDiagram.Valid (⟨tyD2L D.dom, tyD2L D.cod, D.layers.map (fun l => ⟨tyD2L l.left, preBox l.box, tyD2L l.right⟩)⟩ : GDiagram) := by
    intro l hl
    obtain ⟨l', hl', rfl⟩ := List.mem_map.1 hl
    exact pre_valid (v l' hl')
  refine ⟨wt, va, ?_⟩
  rw [toDiscopy_eq wt va]
  simp only [tyL2D_tyD2L, List.map_map]
  congr 1
  refine Diagram.ext rfl rfl ?_
  show List.map _ D.layers = D.layers
  conv_rhs => rw [← List.map_id D.layers]
  refine List.map_congr_left fun l hl => ?_
  simp [tyL2D_tyD2L, image_pre (v l hl)]

theorem tensor_valid {f g : GDiagram} (vf : GDiagram.Valid f) (vg : GDiagram.Valid g) : GDiagram.Valid (tensor f g) := by
  intro l hl
  rw [tensor_layers, List.mem_append, List.mem_map, List.mem_map] at hl
  rcases hl with ⟨l', h', rfl⟩ | ⟨l', h', rfl⟩
  · exact vf l' h'
  · exact vg l' h'

/-- C107: the conversion is compatible with `@`, `>>` and `dagger()`. -/
theorem C107_functorial {f g : GDiagram} (wf : f.WT) (wg : g.WT) (vf : GDiagram.Valid f) (vg : GDiagram.Valid g) : ∃ F G, toDiscopy f = .ok F ∧ toDiscopy g = .ok G ∧
    toDiscopy (tensor f g) = .ok (tensor F G) ∧
    (∀ h, andThen f g = .ok h → ∃ H, toDiscopy h = .ok H ∧ andThen F G = .ok H) ∧
    toDiscopy f.dagger = .ok (daggerWith DBox.dagger F) := by
  refine ⟨_, _, toDiscopy_eq wf vf, toDiscopy_eq wg vg, ?_, ?_, ?_⟩
  · rw [toDiscopy_eq (WT.tensor wf wg) (tensor_valid vf vg)]
    simp only [tensor_eq, tyL2D_append, List.map_append, List.map_map, Function.comp_def, Layer.extend]
    rfl
  · intro h hh
    obtain ⟨e, rfl⟩ := andThen_ok_iff.1 hh
    refine ⟨_, toDiscopy_eq (WT.andThen wf wg hh) ?_, ?_⟩
    · intro l hl
      rcases List.mem_append.1 hl with hl | hl
      · exact vf l hl
      · exact vg l hl
    · rw [andThen_eq_ok (by simp [e])]
      simp
  · rw [toDiscopy_eq (GDiagram.wt_dagger wf) ?_]
    · by_cases he : f.layers.isEmpty = true
      · simp only [GDiagram.dagger, daggerWith, if_pos he, List.isEmpty_map]
      · simp only [GDiagram.dagger, daggerWith, if_neg he, List.isEmpty_map, List.map_map, List.map_reverse]
        congr 2
        congr 1
        refine List.map_congr_left fun l _ => ?_
        simp [imageBox_dagger]
    · intro l hl
      by_cases he : f.layers.isEmpty = true
      · simp only [GDiagram.dagger, daggerWith, if_pos he] at hl
        exact vf l hl
      · simp only [GDiagram.dagger, daggerWith, if_neg he] at hl
        obtain ⟨l', hl', rfl⟩ := List.mem_map.1 hl
        exact (vf l' (List.mem_reverse.1 hl')).dagger

/-! ## What is lost -/

/-- C107 refuted for frames: frames with different components become the same box. -/
theorem C107_refuted_frames : frameL2D (.frame "f" [⟨"s", 0⟩] [⟨"s", 0⟩] [.box (.base (.gen "a" [] [] 0))] 0) = frameL2D (.frame "f" [⟨"s", 0⟩] [⟨"s", 0⟩] [] 0) := rfl

/-- C107 refuted for frames: the dagger of a frame does not become the dagger of its box; it comes back as a box of another name. -/
theorem C107_refuted_dagger_frame :
    let f : FBox := .frame "f" [⟨"s", 0⟩] [⟨"n", 0⟩] [] 0
    (frameL2D f).map DBox.dagger ≠ frameL2D f.dagger ∧
    frameL2D f.dagger = .ok (.box "f†" [⟨"n", 0⟩] [⟨"s", 0⟩] 0 false) := by decide

/-- C107 refuted: an input of a word of DisCoPy is lost, and `from_discopy` raises an exception for diagrams with such words. -/
theorem C107_refuted_word_input : fromDiscopy (ofBox (.word "w" [⟨"n", 0⟩] [⟨"s", 0⟩] 0 false)) = .error .valueError := by decide +kernel

/-! ## Examples -/

private def n0 : Ob := ⟨"n", 0⟩
private def s0 : Ob := ⟨"s", 0⟩
/-- "Alice loves" with the object of the verb bent to the left, and a daggered word: words, a cup, a reversed cap, a swap, a spider. -/
private def exD : GDiagram :=
  ⟨[], [s0, ⟨"n", -1⟩, s0, s0, ⟨"n", 0⟩, ⟨"n", -1⟩],
    [⟨[], .word "Alice" [n0] 0, []⟩,
     ⟨[n0], .word "loves" [⟨"n", 1⟩, s0, ⟨"n", -1⟩] 0, []⟩,
     ⟨[], .cup n0 ⟨"n", 1⟩ false, [s0, ⟨"n", -1⟩]⟩,
     ⟨[s0, ⟨"n", -1⟩], .cap ⟨"n", 0⟩ ⟨"n", -1⟩ false, []⟩,
     ⟨[s0, ⟨"n", -1⟩], .daggered (.gen "f" [s0] [⟨"n", 0⟩] 2), [⟨"n", -1⟩]⟩,
     ⟨[s0, ⟨"n", -1⟩], .spider s0 1 2, [⟨"n", -1⟩]⟩,
     ⟨[s0, ⟨"n", -1⟩, s0, s0], .cap ⟨"n", -1⟩ ⟨"n", 0⟩ true, [⟨"n", -1⟩]⟩,
     ⟨[s0, ⟨"n", -1⟩, s0, s0], .swap ⟨"n", -1⟩ ⟨"n", 0⟩, [⟨"n", -1⟩]⟩,
     ⟨[s0, ⟨"n", -1⟩, s0, s0, ⟨"n", 0⟩], .spider ⟨"n", -1⟩ 2 1, []⟩]⟩

example : exD.WT := by decide
private theorem exD_valid : ∀ l ∈ exD.layers, l.box.Valid ∧ l.box.Simple := by
  intro l hl
  simp only [exD, List.mem_cons, List.not_mem_nil, or_false] at hl
  rcases hl with rfl | rfl | rfl | rfl | rfl | rfl | rfl | rfl | rfl <;> exact ⟨by first | trivial | (show _ = true; decide), trivial⟩
example : ∃ D, toDiscopy exD = .ok D ∧ fromDiscopy D = .ok exD :=
  C107_roundtrip (by decide) (fun l hl => (exD_valid l hl).1) (fun l hl => (exD_valid l hl).2)
example : (match toDiscopy exD with | .ok D => fromDiscopy D | .error e => .error e) = .ok exD := by decide +kernel
/-- A reversed cup from DisCoPy. -/
example : fromDiscopy (ofBox (.cup ⟨"n", 1⟩ ⟨"n", 0⟩)) = .ok (ofBox (.cup ⟨"n", 1⟩ ⟨"n", 0⟩ true)) := by decide +kernel
example : DBox.Ok (.cup ⟨"n", 1⟩ ⟨"n", 0⟩) := Or.inr rfl
example : (DBox.word "w" [⟨"n", 0⟩] [] 0 true).Ok := rfl

end Discopy
end Lambeq
