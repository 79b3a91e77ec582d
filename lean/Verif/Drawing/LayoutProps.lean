import Verif.Drawing.LayoutWires

namespace Lambeq
namespace Draw
variable {O B : Type} [BoxSig B O]
set_option linter.unusedSectionVars false
set_option linter.unusedSimpArgs false

variable {keep : B → Bool} {fol : Bool} {d : Diagram O B} {r : Drawable O B}

theorem left_lims {D : Drawable O B} {b : BoxNode B} {x : ℚ} (h : LeftOf x (D.points b)) : x < (D.xLims b).1 := by
  have := h _ (minOf_mem (points_ne_nil D b))
  unfold Drawable.xLims ledge; simp only; linarith

theorem right_lims {D : Drawable O B} {b : BoxNode B} {x : ℚ} (h : RightOf x (D.points b)) : (D.xLims b).2 < x := by
  have := h _ (maxOf_mem (points_ne_nil D b))
  unfold Drawable.xLims ledge; simp only; linarith

theorem apart_lims {D : Drawable O B} {b c : BoxNode B} (h : Apart (D.points b) (D.points c)) : (D.xLims b).2 < (D.xLims c).1 ∨ (D.xLims c).2 < (D.xLims b).1 := by
  unfold Drawable.xLims ledge
  rcases h with h | h
  · left
    have := h _ (maxOf_mem (points_ne_nil D b)) _ (minOf_mem (points_ne_nil D c))
    simp only; linarith
  · right
    have := h _ (minOf_mem (points_ne_nil D b)) _ (maxOf_mem (points_ne_nil D c))
    simp only; linarith

/-- C96: every wire is a straight line down, between two ends of the drawing. -/
theorem C96_vertical (w : d.WT) (h : fromDiagram keep fol d = .ok r) :
    ∀ e ∈ r.wires, e.1 < r.ends.length ∧ e.2 < r.ends.length ∧ r.xAt e.1 = r.xAt e.2 ∧ r.yAt e.2 < r.yAt e.1 := by
  intro e he
  have G := (fromDiagram_good w h).1
  exact ⟨(G.wire_lt e he).1, (G.wire_lt e he).2, G.vert e he, G.down e he⟩

/-- C96: the inputs, the outputs and the two sides of every box are drawn from left to right in the order of the types, at least 5/2 apart; the ends of a box are on its upper and lower edge, and its
centre is within its limits. -/
theorem C96_order (w : d.WT) (h : fromDiagram keep fol d = .ok r) :
    ((List.range d.dom.length).map r.xAt).Pairwise (fun a b => a + 5 / 2 ≤ b) ∧
    ((List.range' (r.ends.length - d.cod.length) d.cod.length).map r.xAt).Pairwise (fun a b => a + 5 / 2 ≤ b) ∧
    ∀ b ∈ r.boxes, (b.dom.map r.xAt).Pairwise (fun a b => a + 5 / 2 ≤ b) ∧ (b.cod.map r.xAt).Pairwise (fun a b => a + 5 / 2 ≤ b) ∧
      (∀ i ∈ b.dom, r.yAt i = b.y + 1 / 4) ∧ (∀ i ∈ b.cod, r.yAt i = b.y - 1 / 4) ∧
      (∀ i ∈ b.dom ++ b.cod, (r.xLims b).1 + 1 / 2 ≤ r.xAt i ∧ r.xAt i + 1 / 2 ≤ (r.xLims b).2) ∧ (r.xLims b).1 + 1 / 2 ≤ b.x ∧ b.x + 1 / 2 ≤ (r.xLims b).2 := by
  have G := (fromDiagram_good w h).1
  refine ⟨G.inp, G.out, fun b hb => ⟨(G.boxGap b hb).1, (G.boxGap b hb).2, (G.boxY b hb).1, (G.boxY b hb).2, ?_, ?_, ?_⟩⟩
  · intro i hi
    have : r.xAt i ∈ r.points b := by
      have hi' : i ∈ b.cod ++ b.dom := by simp only [List.mem_append] at hi ⊢; tauto
      unfold Drawable.points
      rw [if_neg (List.ne_nil_of_mem hi')]
      exact List.mem_map_of_mem hi'
    have h1 := minOf_le _ this
    have h2 := le_maxOf _ this
    unfold Drawable.xLims ledge
    constructor <;> simp only <;> linarith
  · obtain ⟨p, hp, hpx⟩ := (G.mid b hb).1
    have := minOf_le p hp
    unfold Drawable.xLims ledge; simp only; linarith
  · obtain ⟨p, hp, hpx⟩ := (G.mid b hb).2
    have := le_maxOf p hp
    unfold Drawable.xLims ledge; simp only; linarith

/-- C96: with `foliated=True`, or if some wire is there at every layer but the first, two boxes are never drawn over each other: they are beside each other, or the later one is lower by at least 1. -/
theorem C96_boxes_partial (w : d.WT) (h : fromDiagram keep fol d = .ok r) (hn : fol = true ∨ ∀ l ∈ d.layers.tail, l.dom ≠ []) :
    r.boxes.Pairwise (fun b c => (r.xLims b).2 < (r.xLims c).1 ∨ (r.xLims c).2 < (r.xLims b).1 ∨ c.y + 1 ≤ b.y) := by
  refine List.Pairwise.imp ?_ ((fromDiagram_good w h).2 hn).sep
  intro b c hbc
  rcases hbc with hbc | hbc
  · rcases apart_lims hbc with h1 | h1
    · exact .inl h1
    · exact .inr (.inl h1)
  · exact .inr (.inr hbc)

/-- C96: no wire passes through a box: it is to the left or to the right of it, or begins at or below its lower edge, or ends at or above its upper edge. -/
theorem C96_clear_partial (w : d.WT) (h : fromDiagram keep fol d = .ok r) (hn : fol = true ∨ ∀ l ∈ d.layers.tail, l.dom ≠ []) :
    ∀ e ∈ r.wires, ∀ b ∈ r.boxes, r.xAt e.1 < (r.xLims b).1 ∨ (r.xLims b).2 < r.xAt e.1 ∨ r.yAt e.1 ≤ b.y - 1 / 4 ∨ b.y + 1 / 4 ≤ r.yAt e.2 := by
  intro e he b hb
  rcases ((fromDiagram_good w h).2 hn).clear e he b hb with h1 | h1 | h1 | h1
  · exact .inl (left_lims h1)
  · exact .inr (.inl (right_lims h1))
  · exact .inr (.inr (.inl h1))
  · exact .inr (.inr (.inr h1))

/-- C96: with `foliated=True` each box is exactly 1 below the box before it. -/
theorem C96_foliated (w : d.WT) (h : fromDiagram keep true d = .ok r) : ∃ y : ℚ, r.boxes.map BoxNode.y = (List.range d.layers.length).map (fun k : Nat => y - (k : ℚ)) := by
  obtain ⟨_, _, _, _, _, J6, _⟩ := drawBoxes_spec (keep := keep) (fol := true) d.layers d.dom d.cod 0 ⟨[], inputs d.dom, []⟩ (List.range d.dom.length) 1 w (by simp)
    (start_inv d.dom) (by simp) (le_refl _) (by simp)
  have J := J6 rfl
  rw [fromDiagram_ok h]
  generalize (drawBoxes keep true 0 ⟨[], inputs d.dom, []⟩ (List.range d.dom.length) 1 d.layers) = q at *
  generalize hy : (minOf (addOutputs q.1 q.2.1 q.2.2 d.cod).ys + maxOf (addOutputs q.1 q.2.1 q.2.2 d.cod).ys) / 2 = y
  refine ⟨-y, ?_⟩
  have : ((addOutputs q.1 q.2.1 q.2.2 d.cod).translate (minOf (addOutputs q.1 q.2.1 q.2.2 d.cod).xs) y).boxes.map BoxNode.y = (q.1.boxes.map BoxNode.y).map (fun v => v - y) := by
    simp [Drawable.translate, addOutputs, Function.comp_def]
  rw [this, J]
  simp only [List.map_nil, List.nil_append, List.map_map, Function.comp_def, List.range_eq_range']
  exact List.map_congr_left (fun k _ => by ring)

/-- C96: which boxes there are, in order, and which ends belong to them; kinds and types of all the ends; and the wires: into every input of every box and every output of the diagram leads one wire,
from the place where this wire of the diagram comes from. -/
theorem C96_wires (w : d.WT) (h : fromDiagram keep fol d = .ok r) :
    r.boxes.map BoxNode.obj = d.boxes ∧
    r.boxes.map (fun b => (b.obj, b.dom, b.cod)) = boxList d.dom.length d.layers d.layers.length ∧
    r.ends.map (fun e => (e.kind, e.obj)) = endList d.dom d.layers d.layers.length ++ d.cod.map (fun o => (EndKind.output, o)) ∧
    r.wires = wireList d.dom.length d.layers d.layers.length ++
      (List.range d.cod.length).map (fun p => (endOf d.dom.length d.layers (origin d.layers d.layers.length p), base d.dom.length d.layers d.layers.length + p)) := by
  obtain ⟨h1, h2, h3⟩ := fromDiagram_skel w h
  refine ⟨?_, h1, h2, h3⟩
  have := congrArg (List.map Prod.fst) h1
  simp only [List.map_map, boxList, List.take_length] at this
  rw [show (Prod.fst ∘ fun b : BoxNode B => (b.obj, b.dom, b.cod)) = BoxNode.obj from rfl] at this
  rw [this, Diagram.boxes]
  apply List.ext_getElem
  · simp
  · intro i h1 h2; simp

theorem minOf_sub {l : List ℚ} (h : l ≠ []) (a : ℚ) : minOf (l.map (fun v => v - a)) = minOf l - a := by
  have h' : l.map (fun v => v - a) ≠ [] := by simpa using h
  apply le_antisymm
  · exact minOf_le _ (List.mem_map_of_mem (f := fun v => v - a) (minOf_mem h))
  · obtain ⟨v, hv, e⟩ := List.mem_map.1 (minOf_mem h')
    have := minOf_le v hv
    rw [← e]; linarith

/-- C96: the drawing begins at 0 on the left, and reaches as far above 0 as below. -/
theorem C96_origin (h : fromDiagram keep fol d = .ok r) :
    (0 ∈ r.xs ∧ ∀ v ∈ r.xs, 0 ≤ v) ∧ ∃ t : ℚ, t ∈ r.ys ∧ -t ∈ r.ys ∧ ∀ v ∈ r.ys, -t ≤ v ∧ v ≤ t := by
  have hne : ∀ D : Drawable O B, D.xs ≠ [] → D.ys ≠ [] := by
    intro D hD
    simp only [Drawable.xs, Drawable.ys, ne_eq, List.append_eq_nil_iff, List.map_eq_nil_iff] at hD ⊢
    exact hD
  have key : ∀ D : Drawable O B, moveToOrigin D = .ok r → (0 ∈ r.xs ∧ ∀ v ∈ r.xs, 0 ≤ v) ∧ ∃ t : ℚ, t ∈ r.ys ∧ -t ∈ r.ys ∧ ∀ v ∈ r.ys, -t ≤ v ∧ v ≤ t := by
    intro D hD
    unfold moveToOrigin at hD
    split_ifs at hD with hx
    injection hD with hD
    have ex : r.xs = D.xs.map (fun v => v - minOf D.xs) := by
      rw [← hD]; simp [Drawable.xs, Drawable.translate, Function.comp_def]
    have ey : r.ys = D.ys.map (fun v => v - (minOf D.ys + maxOf D.ys) / 2) := by
      rw [← hD]; simp [Drawable.ys, Drawable.translate, Function.comp_def]
    have hy := hne D hx
    rw [ex, ey]
    refine ⟨⟨List.mem_map.2 ⟨_, minOf_mem hx, by ring⟩, ?_⟩, (maxOf D.ys - minOf D.ys) / 2, List.mem_map.2 ⟨_, maxOf_mem hy, by ring⟩, List.mem_map.2 ⟨_, minOf_mem hy, by ring⟩, ?_⟩
    · intro v hv
      obtain ⟨u, hu, rfl⟩ := List.mem_map.1 hv
      have := minOf_le u hu
      linarith
    · intro v hv
      obtain ⟨u, hu, rfl⟩ := List.mem_map.1 hv
      have h1 := minOf_le u hu
      have h2 := le_maxOf u hu
      constructor <;> linarith
  exact key _ h

/-- C96: drawing raises `ValueError` for the empty diagram and succeeds for every other. -/
theorem C96_total (w : d.WT) : (d.dom = [] ∧ d.layers = [] → fromDiagram keep fol d = .error .valueError) ∧ (¬ (d.dom = [] ∧ d.layers = []) → ∃ r, fromDiagram keep fol d = .ok r) := by
  constructor
  · rintro ⟨h1, h2⟩
    have h3 : d.cod = [] := by
      have := w
      unfold Diagram.WT at this
      rw [h1, h2] at this
      exact this.symm
    simp [fromDiagram, h1, h2, h3, drawBoxes, addOutputs, inputs, moveToOrigin, Drawable.xs]
  · intro hne
    have S := drawBoxes_skel (keep := keep) (fol := fol) (ty := d.dom) (all := d.layers) d.layers d.dom d.cod 0 ⟨[], inputs d.dom, []⟩ (List.range d.dom.length) 1 (Nat.zero_le _) rfl w (by simp)
      (start_inv d.dom) (by simp) (start_skel d.dom d.layers)
    obtain ⟨_, _, J3, _⟩ := drawBoxes_spec (keep := keep) (fol := fol) d.layers d.dom d.cod 0 ⟨[], inputs d.dom, []⟩ (List.range d.dom.length) 1 w (by simp)
      (start_inv d.dom) (by simp) (le_refl _) (by simp)
    simp only [fromDiagram, moveToOrigin]
    rw [if_neg]
    · exact ⟨_, rfl⟩
    · intro hx
      simp only [Drawable.xs, addOutputs, List.append_eq_nil_iff, List.map_eq_nil_iff, List.map_append] at hx
      refine hne ⟨?_, ?_⟩
      · have := hx.2.1
        rw [this] at J3
        simp only [List.length_nil, inputs_length, Nat.le_zero_eq] at J3
        exact List.length_eq_zero_iff.1 J3
      · have := congrArg List.length S.boxes
        rw [hx.1] at this
        simp [boxList] at this
        exact List.length_eq_zero_iff.1 this.symm

/-! ## Examples -/

/-- Boxes for the examples. -/
structure Toy where
  dom : List Nat
  cod : List Nat
  deriving DecidableEq

instance : BoxSig Toy Nat := ⟨Toy.dom, Toy.cod⟩

/-- A state, an effect, and both again. -/
def twice : Diagram Nat Toy := ⟨[], [], [⟨[], ⟨[], [0]⟩, []⟩, ⟨[], ⟨[0], []⟩, []⟩, ⟨[], ⟨[], [0]⟩, []⟩, ⟨[], ⟨[0], []⟩, []⟩]⟩

theorem twice_wt : twice.WT := by simp [Diagram.WT, Diagram.Chain, twice, Layer.dom, Layer.cod, BoxSig.dom, BoxSig.cod]

/-- C96, refuted: after all wires have ended, `_make_space` returns `0, 0` (drawable.py:438-439), and the next box is drawn on top of the first one. -/
theorem C96_refuted_overlap : ∃ r b c, fromDiagram (fun _ => false) false twice = .ok r ∧ r.boxes[0]? = some b ∧ r.boxes[2]? = some c ∧ b.x = c.x ∧ b.y = c.y ∧ r.xLims b = r.xLims c := by
  refine ⟨_, _, _, rfl, rfl, rfl, ?_⟩
  decide +kernel

/-- With `foliated=True` they are apart. -/
example : ∃ r, fromDiagram (fun _ => false) true twice = .ok r ∧
    r.boxes.Pairwise (fun b c => (r.xLims b).2 < (r.xLims c).1 ∨ (r.xLims c).2 < (r.xLims b).1 ∨ c.y + 1 ≤ b.y) := by
  obtain ⟨r, hr⟩ := (C96_total (keep := fun _ => false) (fol := true) twice_wt).2 (by simp [twice])
  exact ⟨r, hr, C96_boxes_partial twice_wt hr (.inl rfl)⟩

/-- Three words and two cups: the second cup is on the left, beside the first. -/
def sentence : Diagram Nat Toy := ⟨[], [3], [⟨[], ⟨[], [0]⟩, []⟩, ⟨[0], ⟨[], [1, 3, 4]⟩, []⟩, ⟨[0, 1, 3, 4], ⟨[], [5]⟩, []⟩, ⟨[0, 1, 3], ⟨[4, 5], []⟩, []⟩, ⟨[], ⟨[0, 1], []⟩, [3]⟩]⟩

theorem sentence_wt : sentence.WT := by simp [Diagram.WT, Diagram.Chain, sentence, Layer.dom, Layer.cod, BoxSig.dom, BoxSig.cod]

example : ∃ r, fromDiagram (fun _ => false) false sentence = .ok r ∧ r.boxes.map (fun b => (b.x, b.y)) = [(0, 1), (5, 1), (10, 1), (35 / 4, 0), (5 / 4, 0)] ∧
    r.wires = [(3, 5), (4, 6), (0, 7), (1, 8), (2, 9)] ∧
    r.boxes.Pairwise (fun b c => (r.xLims b).2 < (r.xLims c).1 ∨ (r.xLims c).2 < (r.xLims b).1 ∨ c.y + 1 ≤ b.y) := by
  have hn : ∀ l ∈ sentence.layers.tail, l.dom ≠ [] := by simp [sentence, Layer.dom, BoxSig.dom]
  have key : ∀ r, fromDiagram (fun _ => false) false sentence = .ok r →
      r.boxes.Pairwise (fun b c => (r.xLims b).2 < (r.xLims c).1 ∨ (r.xLims c).2 < (r.xLims b).1 ∨ c.y + 1 ≤ b.y) := fun r hr => C96_boxes_partial sentence_wt hr (.inr hn)
  obtain ⟨r, hr⟩ := (C96_total (keep := fun _ => false) (fol := false) sentence_wt).2 (by simp [sentence])
  have hc : (match fromDiagram (fun _ => false) false sentence with
      | .ok r => decide (r.boxes.map (fun b => (b.x, b.y)) = [(0, 1), (5, 1), (10, 1), (35 / 4, 0), (5 / 4, 0)] ∧ r.wires = [(3, 5), (4, 6), (0, 7), (1, 8), (2, 9)])
      | .error _ => false) = true := by decide +kernel
  rw [hr] at hc
  have := of_decide_eq_true hc
  exact ⟨r, hr, this.1, this.2, key r hr⟩

/-- The origin of the wires of the sentence: the output is the second wire of the second word. -/
example : origin sentence.layers 5 0 = .out 1 1 ∧ origin sentence.layers 3 4 = .out 2 0 ∧ endOf 0 sentence.layers (.out 1 1) = 2 := by decide

end Draw
end Lambeq
