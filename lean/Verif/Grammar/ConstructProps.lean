import Verif.Grammar.SpiderProps

/-!
# Transpose, curry, then_at, pregroup diagrams, combinators: C15, C16
-/

namespace Lambeq
set_option linter.unusedSimpArgs false
open Diagram

theorem pySlice_none_neg {α : Type _} (l : List α) (n : Nat) (hn : 0 < n) :
    pySlice l none (some (-(n : Int))) = l.take (l.length - n) := by
  simp only [pySlice, clampIdx]
  rw [if_pos (by omega)]
  simp only [List.drop_zero, Nat.sub_zero]
  congr 1
  omega

theorem pySlice_neg_none {α : Type _} (l : List α) (n : Nat) (hn : 0 < n) :
    pySlice l (some (-(n : Int))) none = l.drop (l.length - n) := by
  simp only [pySlice, clampIdx]
  rw [if_pos (by omega)]
  have : ((l.length : Int) + -(n : Int)).toNat = l.length - n := by omega
  rw [this, List.take_of_length_le (by simp)]

namespace GDiagram

/-- Composition of well-typed diagrams with matching types. -/
theorem comp_spec {f g : GDiagram} (hf : f.WT) (hg : g.WT) (h : f.cod = g.dom) :
    ∃ r, andThen f g = .ok r ∧ r.WT ∧ r.dom = f.dom ∧ r.cod = g.cod ∧ r.layers = f.layers ++ g.layers := by
  refine ⟨_, andThen_eq_ok h, ?_, rfl, rfl, rfl⟩
  exact WT.andThen hf hg (andThen_eq_ok h)

theorem boxes_tensor (f g : GDiagram) : (tensor f g).boxes = f.boxes ++ g.boxes := by
  simp [Diagram.boxes, tensor_layers, Function.comp_def, Layer.extend]

theorem boxes_id (t : Ty) : (Diagram.id t : GDiagram).boxes = [] := rfl

theorem boxes_then {f g r : GDiagram} (h : r.layers = f.layers ++ g.layers) :
    r.boxes = f.boxes ++ g.boxes := by simp [Diagram.boxes, h]

/-- All boxes are unreversed caps. -/
def OnlyCaps (bs : List Box) : Prop := ∀ b ∈ bs, ∃ x y, b = .cap x y false ∧ [x] = Ty.r [y]
/-- All boxes are unreversed cups. -/
def OnlyCups (bs : List Box) : Prop := ∀ b ∈ bs, ∃ x y, b = .cup x y false ∧ [x] = Ty.l [y]

theorem cap_spec (t : Ty) : (∃ d, mkCap t (Ty.l t) false = .ok d ∧ d.WT ∧ d.dom = [] ∧ d.cod = t ++ Ty.l t
      ∧ OnlyCaps d.boxes ∧ d.boxes.length = t.length) ∧
    (∃ d, mkCap (Ty.r t) t false = .ok d ∧ d.WT ∧ d.dom = [] ∧ d.cod = Ty.r t ++ t
      ∧ OnlyCaps d.boxes ∧ d.boxes.length = t.length) := by
  constructor
  · obtain ⟨d, h1, h2, h3, h4, h5, h6, h7⟩ := (C13_caps t (Ty.l t)).2 (by simp)
    refine ⟨d, h1, h4, h2, h3, ?_, by simpa [Diagram.boxes] using h6⟩
    intro b hb
    obtain ⟨l, hl, rfl⟩ := List.mem_map.1 hb
    exact h7 l hl
  · obtain ⟨d, h1, h2, h3, h4, h5, h6, h7⟩ := (C13_caps (Ty.r t) t).2 rfl
    refine ⟨d, h1, h4, h2, h3, ?_, by simpa [Diagram.boxes] using h6⟩
    intro b hb
    obtain ⟨l, hl, rfl⟩ := List.mem_map.1 hb
    exact h7 l hl

theorem cup_spec (t : Ty) : (∃ d, mkCup t (Ty.r t) false = .ok d ∧ d.WT ∧ d.dom = t ++ Ty.r t ∧ d.cod = []
      ∧ OnlyCups d.boxes ∧ d.boxes.length = t.length) ∧
    (∃ d, mkCup (Ty.l t) t false = .ok d ∧ d.WT ∧ d.dom = Ty.l t ++ t ∧ d.cod = []
      ∧ OnlyCups d.boxes ∧ d.boxes.length = t.length) := by
  constructor
  · obtain ⟨d, h1, h2, h3, h4, h5, h6, h7⟩ := (C13_cups t (Ty.r t)).2 (by simp)
    refine ⟨d, h1, h4, h2, h3, ?_, by simpa [Diagram.boxes] using h6⟩
    intro b hb
    obtain ⟨l, hl, rfl⟩ := List.mem_map.1 hb
    exact h7 l hl
  · obtain ⟨d, h1, h2, h3, h4, h5, h6, h7⟩ := (C13_cups (Ty.l t) t).2 rfl
    refine ⟨d, h1, h4, h2, h3, ?_, by simpa [Diagram.boxes] using h6⟩
    intro b hb
    obtain ⟨l, hl, rfl⟩ := List.mem_map.1 hb
    exact h7 l hl

/-- **C15 (transpose).** For every well-typed `d : a → b`, `d.transpose(left)` succeeds and is a
well-typed diagram from the adjoint of `b` to the adjoint of `a`; its boxes are `len(a)` caps, then the
boxes of `d` in order, then `len(b)` cups. -/
theorem C15_transpose (d : GDiagram) (hd : d.WT) (left : Bool) :
    ∃ r, transpose d left = .ok r ∧ r.WT
      ∧ r.dom = (if left then Ty.l d.cod else Ty.r d.cod)
      ∧ r.cod = (if left then Ty.l d.dom else Ty.r d.dom)
      ∧ ∃ caps cups, r.boxes = caps ++ d.boxes ++ cups ∧ OnlyCaps caps ∧ OnlyCups cups
        ∧ caps.length = d.dom.length ∧ cups.length = d.cod.length := by
  cases left with
  | true =>
    obtain ⟨cap, c1, c2, c3, c4, c5, c6⟩ := (cap_spec d.dom).1
    obtain ⟨cup, u1, u2, u3, u4, u5, u6⟩ := (cup_spec d.cod).2
    obtain ⟨r1, a1, a2, a3, a4, a5⟩ := comp_spec
      (f := tensor (Diagram.id (Ty.l d.cod)) cap)
      (g := tensor (tensor (Diagram.id (Ty.l d.cod)) d) (Diagram.id (Ty.l d.dom)))
      ((WT.id _).tensor c2) (((WT.id _).tensor hd).tensor (WT.id _))
      (by simp [tensor_cod, tensor_dom, Diagram.id, c4])
    obtain ⟨r2, b1, b2, b3, b4, b5⟩ := comp_spec (f := r1)
      (g := tensor cup (Diagram.id (Ty.l d.dom)))
      a2 (u2.tensor (WT.id _))
      (by rw [a4]; simp [tensor_cod, tensor_dom, Diagram.id, u3])
    refine ⟨r2, ?_, b2, ?_, ?_, cap.boxes, cup.boxes, ?_, c5, u5, c6, u6⟩
    · simp only [transpose, if_true, c1, u1, ok_bind, a1, b1]
    · rw [b3, a3]; simp [tensor_dom, Diagram.id, c3]
    · rw [b4]; simp [tensor_cod, Diagram.id, u4]
    · rw [boxes_then b5, boxes_then a5]; simp [boxes_tensor, boxes_id]
  | false =>
    obtain ⟨cap, c1, c2, c3, c4, c5, c6⟩ := (cap_spec d.dom).2
    obtain ⟨cup, u1, u2, u3, u4, u5, u6⟩ := (cup_spec d.cod).1
    obtain ⟨r1, a1, a2, a3, a4, a5⟩ := comp_spec
      (f := tensor cap (Diagram.id (Ty.r d.cod)))
      (g := tensor (tensor (Diagram.id (Ty.r d.dom)) d) (Diagram.id (Ty.r d.cod)))
      (c2.tensor (WT.id _)) (((WT.id _).tensor hd).tensor (WT.id _))
      (by simp [tensor_cod, tensor_dom, Diagram.id, c4])
    obtain ⟨r2, b1, b2, b3, b4, b5⟩ := comp_spec (f := r1)
      (g := tensor (Diagram.id (Ty.r d.dom)) cup)
      a2 ((WT.id _).tensor u2)
      (by rw [a4]; simp [tensor_cod, tensor_dom, Diagram.id, u3])
    refine ⟨r2, ?_, b2, ?_, ?_, cap.boxes, cup.boxes, ?_, c5, u5, c6, u6⟩
    · simp only [transpose, Bool.false_eq_true, if_false, c1, u1, ok_bind, a1, b1]
    · rw [b3, a3]; simp [tensor_dom, Diagram.id, c3]
    · rw [b4]; simp [tensor_cod, Diagram.id, u4]
    · rw [boxes_then b5, boxes_then a5]; simp [boxes_tensor, boxes_id]

theorem curry_left_of (d : GDiagram) (hd : d.WT) (n : Int) (a x : Ty) (hdom : d.dom = a ++ x)
    (h1 : pySlice d.dom none (some (-n)) = a) (h2 : pySlice d.dom (some (-n)) none = x) :
    ∃ r, curry d n true = .ok r ∧ r.WT ∧ r.dom = a ∧ r.cod = d.cod ++ Ty.l x
      ∧ ∃ caps, r.boxes = caps ++ d.boxes ∧ OnlyCaps caps ∧ caps.length = x.length := by
  obtain ⟨cap, c1, c2, c3, c4, c5, c6⟩ := (cap_spec x).1
  obtain ⟨r1, a1, a2, a3, a4, a5⟩ := comp_spec
      (f := tensor (Diagram.id a) cap)
      (g := tensor d (Diagram.id (Ty.l x)))
      ((WT.id _).tensor c2) (hd.tensor (WT.id _))
      (by simp [tensor_cod, tensor_dom, Diagram.id, c4, hdom])
  refine ⟨r1, ?_, a2, ?_, ?_, cap.boxes, ?_, c5, c6⟩
  · simp only [curry, if_true, h1, h2, c1, ok_bind, a1]
  · rw [a3]; simp [tensor_dom, Diagram.id, c3]
  · rw [a4]; simp [tensor_cod, Diagram.id]
  · rw [boxes_then a5]; simp [boxes_tensor, boxes_id]

/-- **C15 (curry).** For `f : a @ x → b` with `len(x) = n > 0`, `f.curry(n)` is a well-typed diagram
`a → b @ x.l`. For `f : x @ a → b` with `len(x) = n`, `f.curry(n, left=False)` is a well-typed diagram
`a → x.r @ b`. In both cases its boxes are `n` caps followed by the boxes of `f`. -/
theorem C15_curry (d : GDiagram) (hd : d.WT) (a x : Ty) :
    (d.dom = a ++ x → x ≠ [] →
      ∃ r, curry d x.length true = .ok r ∧ r.WT ∧ r.dom = a ∧ r.cod = d.cod ++ Ty.l x
        ∧ ∃ caps, r.boxes = caps ++ d.boxes ∧ OnlyCaps caps ∧ caps.length = x.length) ∧
    (d.dom = x ++ a →
      ∃ r, curry d x.length false = .ok r ∧ r.WT ∧ r.dom = a ∧ r.cod = Ty.r x ++ d.cod
        ∧ ∃ caps, r.boxes = caps ++ d.boxes ∧ OnlyCaps caps ∧ caps.length = x.length) := by
  constructor
  · intro hdom hx
    have hpos : 0 < x.length := List.length_pos_iff.2 hx
    apply curry_left_of d hd _ a x hdom
    · rw [pySlice_none_neg _ _ hpos, hdom]; simp
    · rw [pySlice_neg_none _ _ hpos, hdom]; simp
  · intro hdom
    obtain ⟨cap, c1, c2, c3, c4, c5, c6⟩ := (cap_spec x).2
    obtain ⟨r1, a1, a2, a3, a4, a5⟩ := comp_spec
        (f := tensor cap (Diagram.id a))
        (g := tensor (Diagram.id (Ty.r x)) d)
        (c2.tensor (WT.id _)) ((WT.id _).tensor hd)
        (by simp [tensor_cod, tensor_dom, Diagram.id, c4, hdom])
    refine ⟨r1, ?_, a2, ?_, ?_, cap.boxes, ?_, c5, c6⟩
    · have e1 : pySlice d.dom (some (x.length : Int)) none = a := by
        rw [pySlice_nat_from, hdom]; simp
      have e2 : pySlice d.dom none (some (x.length : Int)) = x := by
        rw [pySlice_nat_to, hdom]; simp
      simp only [curry, Bool.false_eq_true, if_false, e1, e2, c1, ok_bind, a1]
    · rw [a3]; simp [tensor_dom, Diagram.id, c3]
    · rw [a4]; simp [tensor_cod, Diagram.id]
    · rw [boxes_then a5]; simp [boxes_tensor, boxes_id]

/-- **C15, boundary.** The two modes disagree at `n = 0`: `curry(0)` curries *all* wires because
`dom[:-0]` is empty, whereas `curry(0, left=False)` curries none. -/
theorem C15_curry_zero (d : GDiagram) (hd : d.WT) :
    (∃ r, curry d 0 true = .ok r ∧ r.dom = [] ∧ r.cod = d.cod ++ Ty.l d.dom) ∧
    (∃ r, curry d 0 false = .ok r ∧ r.dom = d.dom ∧ r.cod = d.cod) := by
  constructor
  · obtain ⟨r, h1, _, h2, h3, _⟩ := curry_left_of d hd 0 [] d.dom (by simp)
      (by simpa using pySlice_nat_to d.dom 0) (by simpa using pySlice_nat_from d.dom 0)
    exact ⟨r, h1, h2, h3⟩
  · obtain ⟨r, h1, _, h2, h3, _⟩ := (C15_curry d hd d.dom []).2 (by simp)
    exact ⟨r, h1, h2, by simpa using h3⟩

/-- **C15 (then_at).** `d.then_at(g, i)` for `0 ≤ i` succeeds exactly when `i + len(g.dom) ≤ len(d.cod)`
(or both the slice and `g.dom` are empty) and `d.cod[i:i+len(g.dom)] == g.dom`; it raises `ValueError`
otherwise; on success the wires outside the slice are untouched and the slice becomes `g.cod`. -/
theorem C15_thenAt (d g : GDiagram) (i : Nat) (hd : d.WT) (hg : g.WT) :
    ((d.cod.drop i).take g.dom.length = g.dom →
      ∃ r, thenAt d g i = .ok r ∧ r.WT ∧ r.dom = d.dom
        ∧ r.cod = d.cod.take i ++ g.cod ++ d.cod.drop (i + g.dom.length)
        ∧ r.boxes = d.boxes ++ g.boxes) ∧
    ((d.cod.drop i).take g.dom.length ≠ g.dom → thenAt d g i = .error .valueError) := by
  constructor
  · intro h
    have e : d.cod = d.cod.take i ++ g.dom ++ d.cod.drop (i + g.dom.length) := by
      conv => lhs; rw [← List.take_append_drop i d.cod, ← List.take_append_drop g.dom.length (d.cod.drop i), h,
        List.drop_drop]
      simp [List.append_assoc]
    have hok := thenAt_ok_iff.2 ⟨e, rfl⟩
    refine ⟨_, hok, ?_, rfl, rfl, ?_⟩
    · unfold thenAt at hok
      exact WT.andThen hd (((WT.id _).tensor hg).tensor (WT.id _)) hok
    · simp [Diagram.boxes, Function.comp_def, Layer.extend]
  · intro h
    cases hr : thenAt d g i with
    | ok r =>
      exfalso; apply h
      have := (thenAt_ok_iff.1 hr).1
      have hlen : (d.cod.take i).length = i ∨ g.dom = [] ∨ i > d.cod.length := by
        simp; omega
      have hl := congrArg List.length this
      simp at hl
      by_cases hi : i ≤ d.cod.length
      · have h2 : (d.cod.take i).length = i := by simp; omega
        have : d.cod.drop i = g.dom ++ d.cod.drop (i + g.dom.length) := by
          conv => lhs; rw [this]
          rw [List.append_assoc]
          conv => lhs; arg 1; rw [← h2]
          rw [List.drop_left]
        rw [this]; simp
      · have : g.dom = [] := List.eq_nil_of_length_eq_zero (by omega)
        simp [this]
    | error e =>
      unfold thenAt at hr
      by_cases hc : d.cod = (tensor (tensor (Diagram.id (pySlice d.cod none (some (i : Int)))) g)
          (Diagram.id (pySlice d.cod (some ((i : Int) + g.dom.length)) none))).dom
      · rw [andThen_eq_ok hc] at hr; simp at hr
      · rw [andThen_error_iff.2 hc] at hr
        exact hr.symm

/-- Non-vacuity of C15: a two-wire diagram can be transposed and curried. -/
example : (ofBox (.gen "f" [⟨"a",0⟩,⟨"b",0⟩] [⟨"c",0⟩] 0) : GDiagram).WT ∧
    (∃ r, transpose (ofBox (.gen "f" [⟨"a",0⟩,⟨"b",0⟩] [⟨"c",0⟩] 0)) false = .ok r
      ∧ r.cod = [⟨"b",1⟩,⟨"a",1⟩]) ∧
    (∃ r, curry (ofBox (.gen "f" [⟨"a",0⟩,⟨"b",0⟩] [⟨"c",0⟩] 0)) 1 true = .ok r
      ∧ r.cod = [⟨"c",0⟩,⟨"b",-1⟩]) := ⟨by decide, ⟨_, rfl, rfl⟩, ⟨_, rfl, rfl⟩⟩

/-! ### C16 -/

/-- Every layer is a word with nothing on its right. -/
def WordLayer (w : String × Ty × Int) (l : GLayer) : Prop := l.box = .word w.1 w.2.1 w.2.2 ∧ l.right = []

theorem placeStep_ok {d r : GDiagram} {bo : GDiagram × Int} (hd : d.WT) (hb : bo.1.WT)
    (h : placeStep d bo = .ok r) : r.WT ∧ r.dom = d.dom ∧ r.boxes = d.boxes ++ bo.1.boxes
      ∧ ∃ L R, r.layers = d.layers ++ bo.1.layers.map (Layer.extend L R) := by
  have h' := h
  unfold placeStep at h
  have hw := WT.andThen hd (((WT.id (pySlice d.cod none (some bo.2))).tensor hb).tensor
    (WT.id (pySlice d.cod (some (bo.2 + bo.1.dom.length)) none))) h
  obtain ⟨_, rfl⟩ := andThen_ok_iff.1 h
  refine ⟨hw, rfl, ?_, ?_⟩
  · simp [Diagram.boxes, tensor_layers, Diagram.id, Function.comp_def, Layer.extend]
  · refine ⟨pySlice d.cod none (some bo.2), pySlice d.cod (some (bo.2 + bo.1.dom.length)) none, ?_⟩
    simp only [tensor_layers, Diagram.id, List.map_nil, List.append_nil, List.nil_append, List.map_append, map_extend_extend]

theorem place_words (ws : List (String × Ty × Int)) (d : GDiagram) (hd : d.WT) :
    ∃ r ls, (wordBoxes d.cod ws).foldlM placeStep d = .ok r ∧ r.WT ∧ r.dom = d.dom
      ∧ r.layers = d.layers ++ ls ∧ List.Forall₂ WordLayer ws ls
      ∧ r.cod = d.cod ++ (ws.map (·.2.1)).flatten := by
  induction ws generalizing d with
  | nil => exact ⟨d, [], rfl, hd, rfl, by simp, .nil, by simp⟩
  | cons w ws ih =>
    simp only [wordBoxes, List.foldlM_cons]
    have hs : placeStep d (ofBox (.word w.1 w.2.1 w.2.2), (d.cod.length : Int)) =
        .ok ⟨d.dom, d.cod ++ w.2.1, d.layers ++ [⟨d.cod, .word w.1 w.2.1 w.2.2, []⟩]⟩ := by
      unfold placeStep
      rw [pySlice_nat_to, show ((d.cod.length : Int) + ((ofBox (.word w.1 w.2.1 w.2.2) : GDiagram).dom.length : Int))
        = ((d.cod.length : Nat) : Int) by simp [ofBox, Box.dom], pySlice_nat_from]
      rw [andThen_eq_ok (by simp [tensor_eq, Diagram.id, ofBox, Box.dom])]
      simp [tensor_eq, Diagram.id, ofBox, Box.dom, Box.cod, Layer.extend]
    rw [hs, ok_bind]
    have hwt : WT (⟨d.dom, d.cod ++ w.2.1, d.layers ++ [⟨d.cod, .word w.1 w.2.1 w.2.2, []⟩]⟩ : GDiagram) := by
      refine Chain.append (b := d.cod) hd ⟨?_, ?_⟩
      · simp [Layer.dom, Box.dom]
      · simp [Layer.cod, Box.cod, Chain]
    obtain ⟨r, ls, h1, h2, h3, h4, h5, h6⟩ := ih _ hwt
    refine ⟨r, ⟨d.cod, .word w.1 w.2.1 w.2.2, []⟩ :: ls, h1, h2, h3, by rw [h4]; simp, .cons ⟨rfl, rfl⟩ h5, by rw [h6]; simp⟩

theorem place_all (bs : List (GDiagram × Int)) : ∀ (d r : GDiagram), d.WT → (∀ b ∈ bs, b.1.WT) →
    bs.foldlM placeStep d = .ok r → r.WT ∧ r.dom = d.dom ∧ ∃ ls, r.layers = d.layers ++ ls ∧
      ls.map (·.box) = (bs.map (fun b => b.1.boxes)).flatten := by
  induction bs with
  | nil =>
    intro d r hd _ h
    have : d = r := by injection h
    subst this; exact ⟨hd, rfl, [], by simp, rfl⟩
  | cons b bs ih =>
    intro d r hd hb h
    rw [List.foldlM_cons] at h
    cases hs : placeStep d b with
    | error e => rw [hs, err_bind] at h; simp at h
    | ok d1 =>
      rw [hs, ok_bind] at h
      obtain ⟨a1, a2, a3, L, R, a4⟩ := placeStep_ok hd (hb b (by simp)) hs
      obtain ⟨b1, b2, ls, b3, b4⟩ := ih d1 r a1 (fun b hb' => hb b (by simp [hb'])) h
      refine ⟨b1, by rw [b2, a2], b.1.layers.map (Layer.extend L R) ++ ls, by rw [b3, a4]; simp, ?_⟩
      simp [b4, Function.comp_def, Layer.extend, Diagram.boxes]

/-- The box(es) a morphism stands for. -/
theorem morphBox_ok {types : Ty} {m : Morph × Int × Int} {g : GDiagram} (h : morphBox types m = .ok g) :
    g.WT ∧ ∀ b ∈ g.boxes, (∃ x y, b = .cup x y false) ∨ (∃ x y, b = .swap x y) := by
  unfold morphBox at h
  rcases m with ⟨typ, s, e⟩
  cases typ with
  | other => simp at h
  | cup =>
    simp only at h
    generalize pySlice types (some s) (some (s + 1)) = a at h
    generalize pySlice types (some e) (some (e + 1)) = b at h
    by_cases hab : a = Ty.l b
    · obtain ⟨d, h1, _, _, h4, _, _, h7⟩ := (C13_cups a b).2 hab
      rw [h1] at h; injection h with h; subst h
      refine ⟨h4, ?_⟩
      intro bx hbx
      obtain ⟨l, hl, rfl⟩ := List.mem_map.1 hbx
      obtain ⟨x, y, hxy, _⟩ := h7 l hl
      exact Or.inl ⟨x, y, hxy⟩
    · rw [(C13_cups a b).1 hab] at h; simp at h
  | swap =>
    simp only at h
    obtain ⟨d, h1, _, _, h4, h5, _⟩ := C12_swap (pySlice types (some s) (some (s + 1))) (pySlice types (some e) (some (e + 1)))
    rw [h1] at h; injection h with h; subst h
    refine ⟨h4, ?_⟩
    intro bx hbx
    obtain ⟨l, hl, rfl⟩ := List.mem_map.1 hbx
    exact Or.inr (h5 l hl)

theorem pySlice_one {types : Ty} {s : Int} {x : Ob} (h0 : 0 ≤ s) (hx : types[s.toNat]? = some x) :
    pySlice types (some s) (some (s + 1)) = [x] := by
  obtain ⟨k, rfl⟩ := Int.eq_ofNat_of_zero_le h0
  rw [show ((k : Int) + 1) = ((k + 1 : Nat) : Int) by omega, pySlice_nat_nat]
  have hk : types[k]? = some x := by simpa using hx
  obtain ⟨hlt, rfl⟩ := List.getElem?_eq_some_iff.1 hk
  rw [List.drop_eq_getElem_cons hlt, show k + 1 - k = 1 by omega,
    List.take_succ_cons, List.take_zero]

theorem morphBoxes_ok {types : Ty} : ∀ (ms before : List (Morph × Int × Int)) (bs : List (GDiagram × Int)),
    morphBoxes types before ms = .ok bs →
      List.Forall₂ (fun m b => morphBox types m = .ok b.1) ms bs := by
  intro ms
  induction ms with
  | nil => intro before bs h; simp [morphBoxes] at h; subst h; exact .nil
  | cons m ms ih =>
    intro before bs h
    unfold morphBoxes at h
    split at h
    · simp at h
    · rename_i b hb
      split at h
      · simp at h
      · rename_i rest hrest
        have h : (b, morphOffset before m.2.1) :: rest = bs := by simpa using h
        subst h
        exact .cons hb (ih _ _ hrest)

theorem isPregroupLoop_false (ls : List GLayer)
    (h : ∀ l ∈ ls, (∃ x y, l.box = .cup x y false) ∨ (∃ x y, l.box = .swap x y)) (b : Bool) :
    isPregroupLoop b ls = true := by
  induction ls generalizing b with
  | nil => rfl
  | cons l ls ih =>
    have h1 := h l (by simp)
    have h2 := ih (fun l hl => h l (by simp [hl])) false
    rcases h1 with ⟨x, y, hb⟩ | ⟨x, y, hb⟩ <;> cases b <;> simp [isPregroupLoop, hb, h2]

theorem isPregroupLoop_words (ws : List (String × Ty × Int)) (wl ls : List GLayer)
    (h : List.Forall₂ WordLayer ws wl) (h2 : ∀ b, isPregroupLoop b ls = true) :
    isPregroupLoop true (wl ++ ls) = true := by
  induction h with
  | nil => exact h2 true
  | cons hw _ ih => simp [isPregroupLoop, hw.1, hw.2, ih]

/-- The box named by an in-range morphism on single wires `x`, `y`. -/
def morphAtom : Morph → Ob → Ob → Box
  | .cup, x, y => .cup x y false
  | .swap, x, y => .swap x y
  | .other, x, y => .swap x y

/-- **C16.** Whenever `create_pregroup_diagram(words, morphisms)` returns, the result is well typed, has
empty domain, starts with exactly the given words in order with nothing to the right of each, continues
with cups and swaps only, and `is_pregroup` holds. If the morphisms' indices are in range, what follows
the words is exactly one cup or swap per morphism, in order, on the wires' types. -/
theorem C16_pregroup (words : List (String × Ty × Int)) (ms : List (Morph × Int × Int)) (d : GDiagram)
    (h : createPregroupDiagram words ms = .ok d) :
    d.WT ∧ d.dom = [] ∧ isPregroup d = true
      ∧ ∃ wl rest, d.layers = wl ++ rest ∧ List.Forall₂ WordLayer words wl
        ∧ (∀ l ∈ rest, (∃ x y, l.box = .cup x y false) ∨ (∃ x y, l.box = .swap x y))
        ∧ ((∀ m ∈ ms, 0 ≤ m.2.1 ∧ m.2.1 < ((words.map (·.2.1)).flatten.length : Int)
              ∧ 0 ≤ m.2.2 ∧ m.2.2 < ((words.map (·.2.1)).flatten.length : Int)) →
            List.Forall₂ (fun m l => ∃ x y, (words.map (·.2.1)).flatten[m.2.1.toNat]? = some x
              ∧ (words.map (·.2.1)).flatten[m.2.2.toNat]? = some y
              ∧ l.box = morphAtom m.1 x y ∧ m.1 ≠ .other) ms rest) := by
  unfold createPregroupDiagram at h
  generalize htypes : (words.map (·.2.1)).flatten = types at *
  split at h
  · simp at h
  · rename_i bs hbs
    have hm := morphBoxes_ok ms [] bs hbs
    rw [List.foldlM_append] at h
    obtain ⟨r, wl, w1, w2, w3, w4, w5, w6⟩ := place_words words (Diagram.id []) (WT.id [])
    have w1' : (wordBoxes [] words).foldlM placeStep (Diagram.id []) = .ok r := w1
    rw [w1', ok_bind] at h
    have hbwt : ∀ b ∈ bs, b.1.WT ∧ ∀ x ∈ b.1.boxes, (∃ u v, x = .cup u v false) ∨ (∃ u v, x = .swap u v) := by
      clear * - hm
      induction hm with
      | nil => simp
      | cons hmb _ ih =>
        intro b hb
        rcases List.mem_cons.1 hb with rfl | hb
        · exact morphBox_ok hmb
        · exact ih b hb
    obtain ⟨p1, p2, rest, p3, p4⟩ := place_all bs r d w2 (fun b hb => (hbwt b hb).1) h
    have hwl : r.layers = wl := by simpa [Diagram.id] using w4
    have hdd : d.dom = [] := by rw [p2, w3]; rfl
    have hrest : ∀ l ∈ rest, (∃ x y, l.box = .cup x y false) ∨ (∃ x y, l.box = .swap x y) := by
      intro l hl
      have hl' : l.box ∈ rest.map (·.box) := List.mem_map.2 ⟨l, hl, rfl⟩
      rw [p4] at hl'
      obtain ⟨bb, hbb, hmem⟩ := List.mem_flatten.1 hl'
      obtain ⟨b, hb, rfl⟩ := List.mem_map.1 hbb
      exact (hbwt b hb).2 _ hmem
    refine ⟨p1, hdd, ?_, wl, rest, by rw [p3, hwl], w5, hrest, ?_⟩
    · unfold isPregroup
      rw [hdd, p3, hwl]
      simpa using isPregroupLoop_words words wl rest w5 (isPregroupLoop_false rest hrest)
    · intro hrange
      have key : List.Forall₂ (fun m (b : GDiagram × Int) => ∃ x y, types[m.2.1.toNat]? = some x
          ∧ types[m.2.2.toNat]? = some y ∧ b.1.boxes = [morphAtom m.1 x y] ∧ m.1 ≠ .other) ms bs := by
        clear * - hm hrange
        induction hm with
        | nil => exact .nil
        | @cons m b ms bs hmb _ ih =>
          refine .cons ?_ (ih (fun m hm => hrange m (by simp [hm])))
          obtain ⟨r1, r2, r3, r4⟩ := hrange m (by simp)
          obtain ⟨x, hx⟩ : ∃ x, types[m.2.1.toNat]? = some x :=
            ⟨types[m.2.1.toNat]'(by omega), List.getElem?_eq_getElem (by omega)⟩
          obtain ⟨y, hy⟩ : ∃ y, types[m.2.2.toNat]? = some y :=
            ⟨types[m.2.2.toNat]'(by omega), List.getElem?_eq_getElem (by omega)⟩
          refine ⟨x, y, hx, hy, ?_⟩
          unfold morphBox at hmb
          rw [pySlice_one r1 hx, pySlice_one r3 hy] at hmb
          rcases m with ⟨typ, s, e⟩
          cases typ with
          | other => simp at hmb
          | cup =>
            simp only [mkCup, Box.atomicCup] at hmb
            split at hmb
            · have hmb : ofBox (.cup x y false) = b.1 := by simpa [Except.map] using hmb
              rw [← hmb]; exact ⟨rfl, by simp⟩
            · simp [Except.map] at hmb
          | swap =>
            have hmb : ofBox (.swap x y) = b.1 := by simpa [mkSwap] using hmb
            rw [← hmb]; exact ⟨rfl, by simp⟩
      clear * - key p4
      induction key generalizing rest with
      | nil =>
        have : rest = [] := by simpa using p4
        subst this; exact .nil
      | @cons m b ms bs hmb _ ih =>
        obtain ⟨x, y, hx, hy, hb, ho⟩ := hmb
        rw [List.map_cons, List.flatten_cons, hb] at p4
        rcases rest with _ | ⟨l, rest⟩
        · simp at p4
        · simp only [List.map_cons, List.singleton_append, List.cons.injEq] at p4
          exact .cons ⟨x, y, hx, hy, p4.1, ho⟩ (ih rest p4.2)

/-- **C16 (errors).** The only exception `create_pregroup_diagram` raises is `ValueError`. -/
theorem C16_only_valueError (words : List (String × Ty × Int)) (ms : List (Morph × Int × Int)) (e : PyErr)
    (h : createPregroupDiagram words ms = .error e) : e = .valueError := by
  have hm : ∀ types m e, morphBox types m = .error e → e = .valueError := by
    intro types m e h
    rcases m with ⟨typ, s, t⟩
    unfold morphBox at h
    cases typ with
    | other => simp at h; exact h.symm
    | cup =>
      simp only at h
      generalize pySlice types (some s) (some (s + 1)) = a at h
      generalize pySlice types (some t) (some (t + 1)) = b at h
      by_cases hab : a = Ty.l b
      · obtain ⟨d, h1, _⟩ := (C13_cups a b).2 hab
        rw [h1] at h; simp at h
      · rw [(C13_cups a b).1 hab] at h; injection h with h; exact h.symm
    | swap =>
      simp only at h
      obtain ⟨d, h1, _⟩ := C12_swap (pySlice types (some s) (some (s + 1))) (pySlice types (some t) (some (t + 1)))
      rw [h1] at h; simp at h
  have hms : ∀ types ms before e, morphBoxes types before ms = .error e → e = .valueError := by
    intro types ms
    induction ms with
    | nil => intro before e h; simp [morphBoxes] at h
    | cons m ms ih =>
      intro before e h
      unfold morphBoxes at h
      split at h
      · rename_i e' he'
        injection h with h; subst h; exact hm _ _ _ he'
      · split at h
        · rename_i e' he'
          injection h with h; subst h; exact ih _ _ he'
        · simp at h
  have hp : ∀ (bs : List (GDiagram × Int)) (d : GDiagram) e, bs.foldlM placeStep d = .error e → e = .valueError := by
    intro bs
    induction bs with
    | nil => intro d e h; rw [List.foldlM_nil] at h; cases h
    | cons b bs ih =>
      intro d e h
      rw [List.foldlM_cons] at h
      cases hs : placeStep d b with
      | ok d1 => rw [hs, ok_bind] at h; exact ih d1 e h
      | error e' =>
        rw [hs, err_bind] at h
        injection h with h; subst h
        unfold placeStep at hs
        by_cases hc : d.cod = (tensor (tensor (Diagram.id (pySlice d.cod none (some b.2))) b.1)
          (Diagram.id (pySlice d.cod (some (b.2 + b.1.dom.length)) none))).dom
        · rw [andThen_eq_ok hc] at hs; simp at hs
        · rw [andThen_error_iff.2 hc] at hs; injection hs with hs; exact hs.symm
  unfold createPregroupDiagram at h
  split at h
  · rename_i e' he'
    injection h with h; subst h; exact hms _ _ _ _ he'
  · exact hp _ _ _ h

/-- Non-vacuity of C16: "she goes home" with its two cups. -/
example : ∃ d, createPregroupDiagram
    [("she", [⟨"n",0⟩], 0), ("goes", [⟨"n",1⟩,⟨"s",0⟩,⟨"n",-1⟩], 0), ("home", [⟨"n",0⟩], 0)]
    [(.cup, 0, 1), (.cup, 3, 4)] = .ok d ∧ d.cod = [⟨"s",0⟩] ∧ d.layers.length = 5 := ⟨_, rfl, rfl, rfl⟩

/-! ### The CCG combinator diagrams -/

/-- Typing of `fa`, `ba`, `fc`, `bc`, `fx`, `bx`: always defined, well typed, with the advertised
domain and codomain. -/
theorem C29_combinators (x y z : Ty) :
    (∃ d, fa x y = .ok d ∧ d.WT ∧ d.dom = x ++ Ty.l y ++ y ∧ d.cod = x) ∧
    (∃ d, ba y x = .ok d ∧ d.WT ∧ d.dom = y ++ Ty.r y ++ x ∧ d.cod = x) ∧
    (∃ d, fc x y z = .ok d ∧ d.WT ∧ d.dom = x ++ Ty.l y ++ y ++ Ty.l z ∧ d.cod = x ++ Ty.l z) ∧
    (∃ d, bc z y x = .ok d ∧ d.WT ∧ d.dom = Ty.r z ++ y ++ Ty.r y ++ x ∧ d.cod = Ty.r z ++ x) ∧
    (∃ d, fx x y z = .ok d ∧ d.WT ∧ d.dom = x ++ Ty.l y ++ Ty.r z ++ y ∧ d.cod = Ty.r z ++ x) ∧
    (∃ d, bx z y x = .ok d ∧ d.WT ∧ d.dom = y ++ Ty.l z ++ Ty.r y ++ x ∧ d.cod = x ++ Ty.l z) := by
  obtain ⟨cr, cr1, cr2, cr3, cr4, _⟩ := (cup_spec y).1
  obtain ⟨cl, cl1, cl2, cl3, cl4, _⟩ := (cup_spec y).2
  refine ⟨?_, ?_, ?_, ?_, ?_, ?_⟩
  · refine ⟨tensor (Diagram.id x) cl, by simp [fa, cl1, Except.map], (WT.id _).tensor cl2, ?_, ?_⟩
    · simp [tensor_dom, Diagram.id, cl3]
    · simp [tensor_cod, Diagram.id, cl4]
  · refine ⟨tensorN [Diagram.id [], cr, Diagram.id x], by simp [ba, cr1, Except.map], ?_, ?_, ?_⟩
    · rw [tensorN_eq_foldr]
      exact (WT.id _).tensor (cr2.tensor ((WT.id _).tensor (WT.id _)))
    · rw [tensorN_eq_foldr]; simp [tensor_dom, Diagram.id, cr3]
    · rw [tensorN_eq_foldr]; simp [tensor_cod, Diagram.id, cr4]
  · refine ⟨tensor (tensor (Diagram.id x) cl) (Diagram.id (Ty.l z)), by simp only [fc, cl1, Except.map], ((WT.id _).tensor cl2).tensor (WT.id _), ?_, ?_⟩
    · simp [tensor_dom, Diagram.id, cl3]
    · simp [tensor_cod, Diagram.id, cl4]
  · refine ⟨tensor (tensor (Diagram.id (Ty.r z)) cr) (Diagram.id x), by simp only [bc, cr1, Except.map], ((WT.id _).tensor cr2).tensor (WT.id _), ?_, ?_⟩
    · simp [tensor_dom, Diagram.id, cr3]
    · simp [tensor_cod, Diagram.id, cr4]
  · obtain ⟨s1, a1, a2, a3, a4, _⟩ := C12_swap (Ty.l y) (Ty.r z)
    obtain ⟨s2, b1, b2, b3, b4, _⟩ := C12_swap x (Ty.r z)
    obtain ⟨r, h1, h2, h3, h4, _⟩ := comp_spec
      (f := tensor (tensor (Diagram.id x) s1) (Diagram.id y)) (g := tensor s2 cl)
      (((WT.id _).tensor a4).tensor (WT.id _)) (b4.tensor cl2)
      (by simp [tensor_cod, tensor_dom, Diagram.id, a3, b2, cl3])
    refine ⟨r, by simp only [fx, a1, b1, cl1, ok_bind, h1], h2, ?_, ?_⟩
    · rw [h3]; simp [tensor_dom, Diagram.id, a2]
    · rw [h4]; simp [tensor_cod, b3, cl4]
  · obtain ⟨s1, a1, a2, a3, a4, _⟩ := C12_swap (Ty.l z) (Ty.r y)
    obtain ⟨s2, b1, b2, b3, b4, _⟩ := C12_swap (Ty.l z) x
    obtain ⟨r, h1, h2, h3, h4, _⟩ := comp_spec
      (f := tensor (tensor (Diagram.id y) s1) (Diagram.id x)) (g := tensor cr s2)
      (((WT.id _).tensor a4).tensor (WT.id _)) (cr2.tensor b4)
      (by simp [tensor_cod, tensor_dom, Diagram.id, a3, b2, cr3])
    refine ⟨r, by simp only [bx, a1, b1, cr1, ok_bind, h1], h2, ?_, ?_⟩
    · rw [h3]; simp [tensor_dom, Diagram.id, a2]
    · rw [h4]; simp [tensor_cod, b3, cr4]

end GDiagram
end Lambeq
