import Verif.Drawing.Picture

/-!
# From a diagram to a picture (C117)
-/

namespace Lambeq
namespace Draw
open Tikz
set_option linter.unusedSectionVars false
set_option linter.unusedSimpArgs false
set_option linter.unusedVariables false
variable {O B : Type} [BoxSig B O]

theorem modify_same (es : List (WireEnd O)) (i : Nat) (f : WireEnd O → WireEnd O) (h : ∀ e, es[i]? = some e → f e = e) : es.modify i f = es := by
  apply List.ext_getElem?
  intro j
  rw [List.getElem?_modify]
  split
  · next hij =>
    subst hij
    cases he : es[i]? with
    | none => rfl
    | some e => simp [h e he]
  · simp

theorem setHeights_same (es : List (WireEnd O)) (is : List Nat) (y : ℚ) (h : ∀ i ∈ is, ∀ e, es[i]? = some e → e.y = y) :
    setHeights es is y = es := by
  induction is with
  | nil => rfl
  | cons i is ih =>
    rw [setHeights, List.foldl_cons, modify_same]
    · exact ih (fun j hj => h j (List.mem_cons_of_mem _ hj))
    · intro e he
      rw [← h i (by simp) e he]

/-- C117: with the default scale and pad a layout stays as it is. -/
theorem C117_unscaled (D : Drawable O B) (hne : D.xs ≠ [])
    (h : ∀ b ∈ D.boxes, (∀ i ∈ b.dom, D.yAt i = b.y + 1 / 4) ∧ (∀ i ∈ b.cod, D.yAt i = b.y - 1 / 4)) :
    scaled (1, 1) (0, 0) D = .ok D := by
  have hs : ∀ m v : ℚ, stretch m 1 0 v = v := by intro m v; rw [stretch]; ring
  rw [scaled, if_neg hne]
  simp only [hs]
  have hb : (D.boxes.map (fun b : BoxNode B => ({ obj := b.obj, x := b.x, y := b.y, dom := b.dom, cod := b.cod } : BoxNode B))) = D.boxes := by
    induction D.boxes with
    | nil => rfl
    | cons b l ih => simp
  have he : (D.ends.map (fun e : WireEnd O => ({ kind := e.kind, obj := e.obj, x := e.x, y := e.y } : WireEnd O))) = D.ends := by
    induction D.ends with
    | nil => rfl
    | cons b l ih => simp
  rw [hb, he]
  have hf : ∀ l : List (BoxNode B), (∀ b ∈ l, b ∈ D.boxes) → l.foldl (snapEnds 1) D.ends = D.ends := by
    intro l
    induction l with
    | nil => intro _; rfl
    | cons b l ih =>
      intro hl
      have hsn : snapEnds 1 D.ends b = D.ends := by
        have hy : ∀ i e, D.ends[i]? = some e → e.y = D.yAt i := by
          intro i e hie
          rw [Drawable.yAt, hie]
        have hbb := h b (hl b (by simp))
        rw [snapEnds, setHeights_same D.ends b.dom]
        · refine setHeights_same _ _ _ (fun i hi e hie => ?_)
          rw [hy i e hie, hbb.2 i hi]
          simp [halfHeight]
        · intro i hi e hie
          rw [hy i e hie, hbb.1 i hi]
          simp [halfHeight]
      rw [List.foldl_cons, hsn]
      exact ih (fun c hc => hl c (List.mem_cons_of_mem _ hc))
  rw [hf D.boxes (fun b hb => hb)]

/-- What a picture of a layout should show: a polygon for every plain box, every wire, and the wires of every other box; in this order. -/
def expected (a : ℚ) (look : B → Look) (D : Drawable O B) : List (Shape ℚ) :=
  D.boxes.filterMap (fun b => match look b.obj with | .plain _ c g => some (.polygon (corners a c g D b)) | _ => none) ++
  D.wires.map (fun w => .wire (D.place w.1) (D.place w.2)) ++
  D.boxes.flatMap (fun b => match look b.obj with
    | .plain _ _ _ => []
    | _ => b.cod.map (fun i => .wire (b.x, b.y) (D.place i)) ++ b.dom.map (fun i => .wire (D.place i) (b.x, b.y)))

theorem drawn_commands (o : Options) (look : B → Look) (showTy : O → String) (D : Drawable O B) :
    (commands o look showTy D).flatMap drawn = expected o.asymmetry look D := by
  rw [commands, expected, List.flatMap_append, List.flatMap_append]
  refine congr (congrArg _ (congr (congrArg _ ?_) ?_)) ?_
  · rw [List.flatMap_assoc]
    induction D.boxes with
    | nil => rfl
    | cons b l ih =>
      rw [List.flatMap_cons, List.filterMap_cons, ih, boxCmds]
      cases look b.obj with
      | plain n c g => cases o.boxLabels <;> rfl
      | spider => rfl
      | connector => rfl
  · rw [List.flatMap_assoc]
    induction D.wires with
    | nil => rfl
    | cons w l ih =>
      have hw : (wireCmds o showTy D w).flatMap drawn = [.wire (D.place w.1) (D.place w.2)] := by
        rw [wireCmds]
        cases D.ends[w.1]? with
        | none => rfl
        | some e =>
          simp only
          split <;> rfl
      rw [List.flatMap_cons, List.map_cons, ih, hw]
      rfl
  · rw [List.flatMap_cons, List.flatMap_nil, List.append_nil, drawn]
    induction D.boxes with
    | nil => rfl
    | cons b l ih =>
      rw [List.filterMap_cons, List.flatMap_cons, ← ih, spiderOf]
      cases look b.obj with
      | plain n c g => rfl
      | spider => simp [Function.comp_def]
      | connector => simp [Function.comp_def]

theorem corners_length (a : ℚ) (c g : Bool) (D : Drawable O B) (b : BoxNode B) : ∃ p q r s, corners a c g D b = [p, q, r, s] := by
  rw [corners]
  cases c <;> cases g <;> exact ⟨_, _, _, _, rfl⟩

theorem step_ok (st : Style ℚ) (c : Cmd ℚ) (p : Pic ℚ) (h : ∀ pts col, c = .polygon pts col → pts ≠ []) : ∃ q, step st p c = .ok q := by
  cases c with
  | polygon pts col =>
    rw [step, drawPolygon]
    cases pts with
    | nil => exact absurd rfl (h [] col rfl)
    | cons x pts => exact ⟨_, rfl⟩
  | _ => exact ⟨_, rfl⟩

theorem run_ok (st : Style ℚ) (cs : List (Cmd ℚ)) (p : Pic ℚ) (h : ∀ c ∈ cs, ∀ pts col, c = .polygon pts col → pts ≠ []) :
    ∃ q, run st cs p = .ok q := by
  induction cs generalizing p with
  | nil => exact ⟨p, rfl⟩
  | cons c cs ih =>
    obtain ⟨q, hq⟩ := step_ok st c p (h c (by simp))
    rw [run, hq]
    exact ih q (fun c hc => h c (List.mem_cons_of_mem _ hc))

theorem commands_ok (o : Options) (look : B → Look) (showTy : O → String) (D : Drawable O B) :
    ∀ c ∈ commands o look showTy D, ∀ pts col, c = .polygon pts col → pts ≠ [] := by
  rintro c hc pts col rfl
  rw [commands, List.mem_append, List.mem_append] at hc
  rcases hc with (hc | hc) | hc
  · obtain ⟨b, _, hb⟩ := List.mem_flatMap.1 hc
    rw [boxCmds] at hb
    split at hb
    · next n c g hl =>
      rcases List.mem_cons.1 hb with hb | hb
      · injection hb with h1 h2
        obtain ⟨p, q, r, s, h4⟩ := corners_length o.asymmetry c g D b
        rw [h1, h4]
        exact List.cons_ne_nil _ _
      · split at hb
        · simp at hb
        · cases hb
    · cases hb
  · obtain ⟨w, _, hw⟩ := List.mem_flatMap.1 hc
    rw [wireCmds] at hw
    rcases List.mem_cons.1 hw with hw | hw
    · cases hw
    · split at hw
      · split at hw
        · simp at hw
        · cases hw
      · cases hw
  · simp at hc

variable {keep : B → Bool} {fol : Bool} {d : Diagram O B}

theorem drawTikz_eq (st : Style ℚ) (o : Options) (look : B → Look) (showTy : O → String) (w : d.WT) (ho : o.scale = (1, 1) ∧ o.pad = (0, 0))
    {D : Drawable O B} (h : fromDiagram keep fol d = .ok D) : drawTikz st o look showTy keep fol d = run st (commands o look showTy D) {} := by
  have h1 := (C96_order w h).2.2
  have hne : D.xs ≠ [] := by
    intro hx
    have := (C96_origin h).1.1
    rw [hx] at this
    cases this
  rw [drawTikz, h]
  simp only [ho.1, ho.2, C117_unscaled D hne (fun b hb => ⟨(h1 b hb).2.2.1, (h1 b hb).2.2.2.1⟩)]

/-- C117: every diagram without frames that is not empty is drawn, with the default scale and pad. The picture has, in this order and for nothing else, a
closed polygon for each plain box, a line for each wire of the layout, and a line from each other box to each of its ends; lines refer to nodes at their own places. -/
theorem C117_picture (st : Style ℚ) (o : Options) (look : B → Look) (showTy : O → String) (w : d.WT) (ho : o.scale = (1, 1) ∧ o.pad = (0, 0))
    (hd : ¬ (d.dom = [] ∧ d.layers = [])) :
    ∃ D p, fromDiagram keep fol d = .ok D ∧ drawTikz st o look showTy keep fol d = .ok p ∧
      List.Forall₂ (Shows p.lines) (expected o.asymmetry look D) p.edgeLayer ∧ (p.lines.map NodeLine.id).Nodup := by
  obtain ⟨D, hD⟩ := (C96_total (keep := keep) (fol := fol) w).2 hd
  obtain ⟨p, hp⟩ := run_ok st (commands o look showTy D) {} (commands_ok o look showTy D)
  refine ⟨D, p, hD, by rw [drawTikz_eq st o look showTy w ho hD, hp], ?_, (C116_ids st _ p hp).2.1⟩
  have := C116_lines st _ p hp
  rwa [drawn_commands] at this

/-- C117: the polygon of a box has two corners at the height of the ends of its codomain and two at that of its domain; all ends are between these corners, at
least 1/2 from them, whichever corner is moved to show that the box is conjugated or daggered. -/
theorem C117_boxes (w : d.WT) {D : Drawable O B} (h : fromDiagram keep fol d = .ok D) (a : ℚ) (ha : 0 ≤ a) (conj dagg : Bool)
    (b : BoxNode B) (hb : b ∈ D.boxes) : ∃ p q r s, corners a conj dagg D b = [p, q, r, s] ∧
      p.2 = q.2 ∧ r.2 = s.2 ∧ p.2 < s.2 ∧
      (∀ i ∈ b.cod, D.yAt i = p.2 ∧ p.1 + 1 / 2 ≤ D.xAt i ∧ D.xAt i + 1 / 2 ≤ q.1) ∧
      (∀ i ∈ b.dom, D.yAt i = s.2 ∧ s.1 + 1 / 2 ≤ D.xAt i ∧ D.xAt i + 1 / 2 ≤ r.1) := by
  obtain ⟨_, _, h3, h4, h5, _⟩ := (C96_order w h).2.2 b hb
  have hx : ∀ i, i ∈ b.dom ∨ i ∈ b.cod → (D.xLims b).1 + 1 / 2 ≤ D.xAt i ∧ D.xAt i + 1 / 2 ≤ (D.xLims b).2 :=
    fun i hi => h5 i (List.mem_append.2 hi)
  cases conj <;> cases dagg <;> refine ⟨_, _, _, _, rfl, rfl, rfl, ?_, ?_, ?_⟩
  all_goals first
    | (intro i hi
       have h6 := hx i (.inr hi)
       have h7 := h4 i hi
       refine ⟨?_, ?_, ?_⟩ <;> simp only <;> linarith [h6.1, h6.2])
    | (intro i hi
       have h6 := hx i (.inl hi)
       have h7 := h3 i hi
       refine ⟨?_, ?_, ?_⟩ <;> simp only <;> linarith [h6.1, h6.2])
    | (simp only; linarith)

/-- C117, partial: without texts (`draw_box_labels=False`, `draw_type_labels=False`) the picture is valid TikZ: all nodes are declared before the lines
that refer to them. With texts this also holds if none is put at the end of a wire (C116_order_partial). -/
theorem C117_order_partial (st : Style ℚ) (o : Options) (look : B → Look) (showTy : O → String) (ho : o.boxLabels = false ∧ o.typeLabels = false)
    {p : Pic ℚ} (h : drawTikz st o look showTy keep fol d = .ok p) (baseline : ℚ × ℚ) : DeclaredBefore (output baseline p) := by
  rw [drawTikz] at h
  split at h
  · cases h
  · split at h
    · cases h
    · next D _ =>
      refine C116_order_partial st _ p baseline h ?_
      have hl : labelPlaces (commands o look showTy D) = [] := by
        rw [labelPlaces, List.filterMap_eq_nil_iff]
        intro c hc
        rw [commands, List.mem_append, List.mem_append] at hc
        rcases hc with (hc | hc) | hc
        · obtain ⟨b, _, hb⟩ := List.mem_flatMap.1 hc
          rw [boxCmds] at hb
          split at hb
          · simp only [ho.1, Bool.false_eq_true, if_false, List.mem_singleton] at hb
            rw [hb]
          · cases hb
        · obtain ⟨w, _, hw⟩ := List.mem_flatMap.1 hc
          rw [wireCmds] at hw
          simp only [ho.2, Bool.false_eq_true, false_and, if_false] at hw
          rcases List.mem_cons.1 hw with hw | hw
          · rw [hw]
          · split at hw <;> cases hw
        · rw [List.mem_singleton] at hc
          rw [hc]
      rw [hl]
      intro x hx
      cases hx

theorem pairwise_or {A : Type} {R : A → A → Prop} {l : List A} (h : l.Pairwise R) {a b : A} (ha : a ∈ l) (hb : b ∈ l) (hab : a ≠ b) : R a b ∨ R b a := by
  induction h with
  | nil => cases ha
  | cons hx _ ih =>
    rcases List.mem_cons.1 ha with h1 | h1
    · rcases List.mem_cons.1 hb with h2 | h2
      · exact absurd (h1.trans h2.symm) hab
      · exact .inl (h1 ▸ hx b h2)
    · rcases List.mem_cons.1 hb with h2 | h2
      · exact .inr (h2 ▸ hx a h1)
      · exact ih h1 h2

/-- No wire ends in the middle of a plain box. -/
theorem names_clear (o : Options) (look : B → Look) (showTy : O → String) (w : d.WT) (hn : fol = true ∨ ∀ l ∈ d.layers.tail, l.dom ≠ [])
    {D : Drawable O B} (hD : fromDiagram keep fol d = .ok D) (b : BoxNode B) (hb : b ∈ D.boxes) (hlb : ∃ n c g, look b.obj = .plain n c g) :
    (b.x, b.y) ∉ wirePlaces (commands o look showTy D) := by
  intro hw
  have h3 := (C96_order w hD).2.2
  have hsep := C96_boxes_partial w hD hn
  have hclear := C96_clear_partial w hD hn
  have hvert := C96_vertical w hD
  obtain ⟨_, _, _, _, _, hb1, hb2⟩ := h3 b hb
  have hother : ∀ c ∈ D.boxes, (∀ n cj g, look c.obj ≠ .plain n cj g) →
      (c.x, c.y) ≠ (b.x, b.y) ∧ ∀ i ∈ c.dom ++ c.cod, D.place i ≠ (b.x, b.y) := by
    intro c hc hlc
    have hbc : b ≠ c := by
      rintro rfl
      obtain ⟨n, cj, g, hl⟩ := hlb
      exact hlc n cj g hl
    have hs := pairwise_or hsep hb hc hbc
    obtain ⟨_, _, hc1, hc2, hc3, hc4, hc5⟩ := h3 c hc
    constructor
    · intro he
      injection he with e1 e2
      rcases hs with (hs | hs | hs) | (hs | hs | hs) <;> linarith
    · intro i hi he
      have e1 : D.xAt i = b.x := congrArg Prod.fst he
      have e2 : D.yAt i = b.y := congrArg Prod.snd he
      have h6 := hc3 i hi
      rcases List.mem_append.1 hi with hi | hi
      · have := hc1 i hi
        rcases hs with (hs | hs | hs) | (hs | hs | hs) <;> linarith [h6.1, h6.2]
      · have := hc2 i hi
        rcases hs with (hs | hs | hs) | (hs | hs | hs) <;> linarith [h6.1, h6.2]
  rw [wirePlaces, drawn_commands, expected, List.flatMap_append, List.flatMap_append, List.mem_append, List.mem_append] at hw
  rcases hw with (hw | hw) | hw
  · obtain ⟨s, hs, hsx⟩ := List.mem_flatMap.1 hw
    obtain ⟨c, _, hc⟩ := List.mem_filterMap.1 hs
    split at hc
    · injection hc with hc
      subst hc
      cases hsx
    · cases hc
  · obtain ⟨s, hs, hsx⟩ := List.mem_flatMap.1 hw
    obtain ⟨e, he, rfl⟩ := List.mem_map.1 hs
    have h7 := hclear e he b hb
    obtain ⟨_, _, h8, h9⟩ := hvert e he
    have h10 : (D.xAt e.1 = b.x ∧ D.yAt e.1 = b.y) ∨ (D.xAt e.2 = b.x ∧ D.yAt e.2 = b.y) := by
      simpa [Drawable.place, eq_comm] using hsx
    rcases h10 with ⟨h10, h11⟩ | ⟨h10, h11⟩ <;> rcases h7 with h7 | h7 | h7 | h7 <;> linarith
  · obtain ⟨s, hs, hsx⟩ := List.mem_flatMap.1 hw
    obtain ⟨c, hc, hcs⟩ := List.mem_flatMap.1 hs
    have hcs' : s ∈ c.cod.map (fun i => Shape.wire (c.x, c.y) (D.place i)) ++ c.dom.map (fun i => Shape.wire (D.place i) (c.x, c.y)) ∧
        ∀ n cj g, look c.obj ≠ .plain n cj g := by
      split at hcs
      · cases hcs
      · next hnp => exact ⟨hcs, fun n cj g hl => hnp n cj g hl⟩
    obtain ⟨h5, h6⟩ := hother c hc hcs'.2
    rcases List.mem_append.1 hcs'.1 with hs | hs
    · obtain ⟨i, hi, rfl⟩ := List.mem_map.1 hs
      simp only [List.mem_cons, List.not_mem_nil, or_false] at hsx
      rcases hsx with hsx | hsx
      · exact h5 hsx.symm
      · exact h6 i (List.mem_append_right _ hi) hsx.symm
    · obtain ⟨i, hi, rfl⟩ := List.mem_map.1 hs
      simp only [List.mem_cons, List.not_mem_nil, or_false] at hsx
      rcases hsx with hsx | hsx
      · exact h6 i (List.mem_append_left _ hi) hsx.symm
      · exact h5 hsx.symm

/-- C117, partial: without the types, and if every layer but the first has a wire above it (or `foliated=True`), so that no box is drawn on another, the picture
is valid TikZ: no name of a box is written where a wire ends. -/
theorem C117_names_partial (st : Style ℚ) (o : Options) (look : B → Look) (showTy : O → String) (w : d.WT) (ho : o.scale = (1, 1) ∧ o.pad = (0, 0))
    (ht : o.typeLabels = false) (hn : fol = true ∨ ∀ l ∈ d.layers.tail, l.dom ≠ [])
    {p : Pic ℚ} (h : drawTikz st o look showTy keep fol d = .ok p) (baseline : ℚ × ℚ) : DeclaredBefore (output baseline p) := by
  obtain ⟨D, hD⟩ : ∃ D, fromDiagram keep fol d = .ok D := by
    cases hD : fromDiagram keep fol d with
    | ok D => exact ⟨D, rfl⟩
    | error e => rw [drawTikz, hD] at h; cases h
  rw [drawTikz_eq st o look showTy w ho hD] at h
  refine C116_order_partial st _ p baseline h ?_
  intro x hx hw
  obtain ⟨b, hb, hlb, rfl⟩ : ∃ b ∈ D.boxes, (∃ n c g, look b.obj = .plain n c g) ∧ x = (b.x, b.y) := by
    rw [labelPlaces, List.mem_filterMap] at hx
    obtain ⟨c, hc, hcx⟩ := hx
    rw [commands, List.mem_append, List.mem_append] at hc
    rcases hc with (hc | hc) | hc
    · obtain ⟨b, hb, hbc⟩ := List.mem_flatMap.1 hc
      rw [boxCmds] at hbc
      split at hbc
      · next n cj g hl =>
        refine ⟨b, hb, ⟨n, cj, g, hl⟩, ?_⟩
        rcases List.mem_cons.1 hbc with rfl | hbc
        · cases hcx
        · split at hbc
          · rw [List.mem_singleton] at hbc
            subst hbc
            injection hcx with hcx
            exact hcx.symm
          · cases hbc
      · cases hbc
    · obtain ⟨v, _, hv⟩ := List.mem_flatMap.1 hc
      rw [wireCmds] at hv
      simp only [ht, Bool.false_eq_true, false_and, if_false] at hv
      rcases List.mem_cons.1 hv with rfl | hv
      · cases hcx
      · split at hv <;> cases hv
    · rw [List.mem_singleton] at hc
      subst hc
      cases hcx
  exact names_clear o look showTy w hn hD b hb hlb hw

/-! ### A concrete diagram, and refutations -/

/-- A box, then a spider with two legs out. -/
def forked : Diagram Nat Toy := ⟨[0], [1, 1], [⟨[], ⟨[0], [1]⟩, []⟩, ⟨[], ⟨[1], [1, 1]⟩, []⟩]⟩

/-- The second box is a spider. -/
def toyLook (b : Toy) : Look := if b.dom = [1] then .spider else .plain "f" false false

theorem forked_wt : forked.WT := by simp [Diagram.WT, Diagram.Chain, forked, Layer.dom, Layer.cod, BoxSig.dom, BoxSig.cod]

/-- Lines as they are. -/
def plainStyle : Style ℚ := ⟨false, fun _ => "WHITE", fun _ => "BLACK", "1", "1", fun _ _ => none⟩

/-- Non-vacuity of C117: the picture of this diagram. -/
example : forked.WT ∧ ¬ (forked.dom = [] ∧ forked.layers = []) ∧
    ((drawTikz plainStyle {} toyLook (fun _ => "n") (fun _ => false) false forked).toOption.map (fun p => p.edgeLayer.map EdgeLine.ids)) =
      some [[1, 2, 3, 4, 1], [6, 7], [9, 10], [12, 13], [15, 16], [18, 12], [18, 15], [10, 18]] := by
  refine ⟨forked_wt, by simp [forked], by decide +kernel⟩

/-- C117, refuted: pictures are valid TikZ. With `textpad=(0, 0)` the spider's wires end where the types of its legs are written, in a layer that comes after all
lines. -/
theorem C117_refuted_textpad : ∃ p, drawTikz plainStyle { textpad := (0, 0) } toyLook (fun _ => "n") (fun _ => false) false forked = .ok p ∧
    (∃ e ∈ p.edgeLayer, ∃ n ∈ e.ids, n ≠ 0 ∧ ∀ l ∈ p.nodeLayer, l.id ≠ n) := by
  refine ⟨_, rfl, ?_⟩
  decide +kernel

/-- A state and an effect, then a cap and a cup. -/
def scalars : Diagram Nat Toy := ⟨[], [], [⟨[], ⟨[], [0]⟩, []⟩, ⟨[], ⟨[0], []⟩, []⟩, ⟨[], ⟨[], [0, 1]⟩, []⟩, ⟨[], ⟨[0, 1], []⟩, []⟩]⟩

/-- Boxes with two wires are caps and cups. -/
def scalarLook (b : Toy) : Look := if (b.dom ++ b.cod).length = 2 then .connector else .plain "f" false false

/-- C117, refuted with the default arguments: the cap is drawn on the state, and its wires start where the name of the state is written. -/
theorem C117_refuted_default : scalars.WT ∧ ∃ p, drawTikz plainStyle {} scalarLook (fun _ => "n") (fun _ => false) false scalars = .ok p ∧
    (∃ e ∈ p.edgeLayer, ∃ n ∈ e.ids, n ≠ 0 ∧ ∀ l ∈ p.nodeLayer, l.id ≠ n) := by
  refine ⟨by simp [Diagram.WT, Diagram.Chain, scalars, Layer.dom, Layer.cod, BoxSig.dom, BoxSig.cod], _, rfl, ?_⟩
  decide +kernel

/-- Non-vacuity of C117_names_partial. -/
example : forked.WT ∧ (∀ l ∈ forked.layers.tail, l.dom ≠ []) ∧
    (drawTikz plainStyle { typeLabels := false } toyLook (fun _ => "n") (fun _ => false) false forked).isOk = true := by
  refine ⟨forked_wt, ?_, by decide +kernel⟩
  intro l hl
  have : l = ⟨[], ⟨[1], [1, 1]⟩, []⟩ := by simpa [forked] using hl
  subst this
  exact fun h => by cases h

/-- C117, refuted: a scaled drawing still has the ends of a box on its polygon. The ends are moved away from the box with the scale, whose polygon keeps
its height. -/
theorem C117_refuted_scale : ∃ D E : Drawable Nat Toy, fromDiagram (fun _ => false) false forked = .ok D ∧ scaled (1, 2) (0, 0) D = .ok E ∧
    ∃ b ∈ E.boxes, ∃ i ∈ b.dom, ∀ p ∈ corners 0 false false E b, p.2 < E.yAt i := by
  refine ⟨_, _, rfl, rfl, ?_⟩
  decide +kernel

end Draw
end Lambeq
