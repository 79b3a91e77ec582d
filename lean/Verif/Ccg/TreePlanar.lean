import Verif.Ccg.TreeProps

/-!
# C32: planar diagrams, collapsed noun phrases, arbitrary trees
-/

namespace Lambeq
open Diagram GDiagram
set_option linter.unusedSimpArgs false
set_option linter.unusedVariables false

namespace Tree
open Rule (Licensed WireBox Good resolve)

/-! ## Specification -/

/-- No wires cross. -/
def Planar (d : GDiagram) : Prop := ∀ b ∈ d.boxes, ∀ x y, b ≠ Box.swap x y

/-- The tree uses none of the generalised crossed compositions. -/
def NoGenCrossed : Tree → Prop
  | leaf _ _ => True
  | un _ _ c => c.NoGenCrossed
  | bin r _ a b => r ≠ .gbx ∧ r ≠ .gfx ∧ a.NoGenCrossed ∧ b.NoGenCrossed

/-- `np` read as `n` throughout a category. -/
def nounify : Cat → Cat
  | .empty => .empty
  | .atom n => if n = "np" then .atom "n" else .atom n
  | .over x y => .over (nounify x) (nounify y)
  | .under x y => .under (nounify x) (nounify y)

/-- No category in the tree has empty parts. -/
def AllNoEmpty : Tree → Prop
  | leaf _ t => t.NoEmpty
  | un _ t c => t.NoEmpty ∧ c.AllNoEmpty
  | bin _ t a b => t.NoEmpty ∧ a.AllNoEmpty ∧ b.AllNoEmpty

/-! ## Planarity -/

theorem Planar.id (t : Ty) : Planar (Diagram.id t) := by simp [Planar, boxes_id]

theorem Planar.tensor {f g : GDiagram} (hf : Planar f) (hg : Planar g) : Planar (Diagram.tensor f g) := by
  intro b hb
  rw [boxes_tensor] at hb
  rcases List.mem_append.1 hb with h | h
  · exact hf b h
  · exact hg b h

theorem Planar.andThen {f g r : GDiagram} (hf : Planar f) (hg : Planar g) (h : Diagram.andThen f g = .ok r) :
    Planar r := by
  obtain ⟨_, rfl⟩ := andThen_ok_iff.1 h
  intro b hb
  simp only [Diagram.boxes, List.map_append, List.mem_append] at hb
  rcases hb with h | h
  · exact hf b h
  · exact hg b h

theorem Planar.cup {a b : Ty} {d : GDiagram} (h : mkCup a b false = .ok d) : Planar d := by
  by_cases hab : a = Ty.l b
  · obtain ⟨d', e, h1, h2, h3, _, _, h4⟩ := (C13_cups a b).2 hab
    rw [e] at h
    simp only [Except.ok.injEq] at h
    subst h
    intro x hx u v
    obtain ⟨l, hl, rfl⟩ := List.mem_map.1 hx
    obtain ⟨p, q, hb, _⟩ := h4 l hl
    rw [hb]; simp
  · rw [(C13_cups a b).1 hab] at h; simp at h

theorem Planar.cap {a b : Ty} {d : GDiagram} (h : mkCap a b false = .ok d) : Planar d := by
  by_cases hab : a = Ty.r b
  · obtain ⟨d', e, h1, h2, h3, _, _, h4⟩ := (C13_caps a b).2 hab
    rw [e] at h
    simp only [Except.ok.injEq] at h
    subst h
    intro x hx u v
    obtain ⟨l, hl, rfl⟩ := List.mem_map.1 hx
    obtain ⟨p, q, hb, _⟩ := h4 l hl
    rw [hb]; simp
  · rw [(C13_caps a b).1 hab] at h; simp at h

/-- Only the four crossed rules use swaps. -/
theorem planar_apply {rule : Rule} {dom : List Cat} {cod : Option Cat} {d : GDiagram}
    (hc : isCrossed rule = false) (h : rule.apply dom cod = .ok d) : Planar d := by
  have hun : ∀ r, Rule.applyUn r dom cod = .ok d → Planar d := by
    intro r h
    unfold Rule.applyUn at h
    split at h
    · split at h
      · simp only [Except.ok.injEq] at h; subst h; exact Planar.id _
      · split at h
        · simp at h
        · obtain ⟨res, _, h⟩ := Functor.bind_ok_iff.1 h
          dsimp only at h
          split at h
          · obtain ⟨k, hk, h⟩ := Functor.bind_ok_iff.1 h
            simp only [Except.ok.injEq] at h; subst h
            exact (Planar.id _).tensor (Planar.cap hk)
          · obtain ⟨k, hk, h⟩ := Functor.bind_ok_iff.1 h
            simp only [Except.ok.injEq] at h; subst h
            exact (Planar.cap hk).tensor (Planar.id _)
    · simp at h
  have hbin : ∀ left right, Rule.applyBin rule left right = .ok d → Planar d := by
    intro left right h
    unfold Rule.applyBin at h
    split at h
    · obtain ⟨_, _, h⟩ := Functor.bind_ok_iff.1 h
      obtain ⟨c, hc, rfl⟩ := Rule.map_ok h
      exact (Planar.id _).tensor (Planar.cup hc)
    · obtain ⟨_, _, h⟩ := Functor.bind_ok_iff.1 h
      obtain ⟨c, hc, rfl⟩ := Rule.map_ok h
      rw [tensorN_eq_foldr]
      exact (Planar.id _).tensor ((Planar.cup hc).tensor ((Planar.id _).tensor (Planar.id _)))
    · obtain ⟨_, _, h⟩ := Functor.bind_ok_iff.1 h
      obtain ⟨_, _, h⟩ := Functor.bind_ok_iff.1 h
      obtain ⟨_, _, h⟩ := Functor.bind_ok_iff.1 h
      obtain ⟨c, hc, rfl⟩ := Rule.map_ok h
      exact ((Planar.id _).tensor (Planar.cup hc)).tensor (Planar.id _)
    · obtain ⟨_, _, h⟩ := Functor.bind_ok_iff.1 h
      obtain ⟨_, _, h⟩ := Functor.bind_ok_iff.1 h
      obtain ⟨_, _, h⟩ := Functor.bind_ok_iff.1 h
      obtain ⟨c, hc, rfl⟩ := Rule.map_ok h
      exact ((Planar.id _).tensor (Planar.cup hc)).tensor (Planar.id _)
    · simp [isCrossed] at hc
    · simp [isCrossed] at hc
    · obtain ⟨_, _, h⟩ := Functor.bind_ok_iff.1 h
      obtain ⟨_, _, h⟩ := Functor.bind_ok_iff.1 h
      obtain ⟨c, hc, h⟩ := Functor.bind_ok_iff.1 h
      simp only [Except.ok.injEq] at h; subst h
      exact ((Planar.id _).tensor (Planar.cup hc)).tensor (Planar.id _)
    · obtain ⟨_, _, h⟩ := Functor.bind_ok_iff.1 h
      obtain ⟨c, hc, h⟩ := Functor.bind_ok_iff.1 h
      obtain ⟨_, _, h⟩ := Functor.bind_ok_iff.1 h
      simp only [Except.ok.injEq] at h; subst h
      exact ((Planar.id _).tensor (Planar.cup hc)).tensor (Planar.id _)
    · simp [isCrossed] at hc
    · simp [isCrossed] at hc
    · simp only [Except.ok.injEq] at h; subst h; exact Planar.id _
    · simp only [Except.ok.injEq] at h; subst h; exact Planar.id _
    · simp at h
  unfold Rule.apply at h
  split at h
  · simp at h
  · simp at h
  · simp at h
  · exact hun _ h
  · exact hun _ h
  · exact hun _ h
  · split at h
    · exact hbin _ _ h
    · simp at h

theorem planar_joinChildren {l r p : GDiagram × GDiagram} {layer : GDiagram} (hl : Planar l.1 ∧ Planar l.2)
    (hr : Planar r.1 ∧ Planar r.2) (hL : Planar layer) (h : joinChildren [l, r] layer = .ok p) :
    Planar p.1 ∧ Planar p.2 := by
  obtain ⟨l1, l2⟩ := l
  obtain ⟨r1, r2⟩ := r
  rw [join2] at h
  obtain ⟨x, hx, rfl⟩ := Rule.map_ok h
  exact ⟨hl.1.tensor hr.1, (hl.2.tensor hr.2).andThen hL hx⟩

theorem planar_join1 {l p : GDiagram × GDiagram} {layer : GDiagram} (hl : Planar l.1 ∧ Planar l.2)
    (hL : Planar layer) (h : joinChildren [l] layer = .ok p) :
    Planar p.1 ∧ Planar p.2 := by
  obtain ⟨l1, l2⟩ := l
  rw [join1] at h
  obtain ⟨x, hx, rfl⟩ := Rule.map_ok h
  exact ⟨hl.1, hl.2.andThen hL hx⟩

theorem planar_crossed {rule : Rule} {t lt rt : Cat} {cl cr p : GDiagram × GDiagram}
    (hl : Planar cl.1 ∧ Planar cl.2) (hr : Planar cr.1 ∧ Planar cr.2)
    (h : planarCrossed rule t lt rt cl cr = .ok p) : Planar p.1 ∧ Planar p.2 := by
  unfold planarCrossed at h
  split at h
  · obtain ⟨_, _, h⟩ := Functor.bind_ok_iff.1 h
    obtain ⟨_, _, h⟩ := Functor.bind_ok_iff.1 h
    obtain ⟨_, _, h⟩ := Functor.bind_ok_iff.1 h
    obtain ⟨i, hi, h⟩ := Functor.bind_ok_iff.1 h
    obtain ⟨c, hc, h⟩ := Functor.bind_ok_iff.1 h
    obtain ⟨d1, h1, h⟩ := Functor.bind_ok_iff.1 h
    obtain ⟨d2, h2, h⟩ := Functor.bind_ok_iff.1 h
    simp only [Except.ok.injEq] at h; subst h
    refine ⟨hl.1, ?_⟩
    have hI := hr.1.andThen hr.2 hi
    have := hl.2.andThen (((Planar.id _).tensor hI).tensor (Planar.id _)) h1
    exact this.andThen ((Planar.cup hc).tensor (Planar.id _)) h2
  · obtain ⟨_, _, h⟩ := Functor.bind_ok_iff.1 h
    obtain ⟨_, _, h⟩ := Functor.bind_ok_iff.1 h
    obtain ⟨_, _, h⟩ := Functor.bind_ok_iff.1 h
    obtain ⟨i, hi, h⟩ := Functor.bind_ok_iff.1 h
    obtain ⟨c, hc, h⟩ := Functor.bind_ok_iff.1 h
    obtain ⟨d1, h1, h⟩ := Functor.bind_ok_iff.1 h
    obtain ⟨d2, h2, h⟩ := Functor.bind_ok_iff.1 h
    simp only [Except.ok.injEq] at h; subst h
    refine ⟨hr.1, ?_⟩
    have hI := hl.1.andThen hl.2 hi
    have := hr.2.andThen (((Planar.id _).tensor hI).tensor (Planar.id _)) h1
    exact this.andThen ((Planar.id _).tensor (Planar.cup hc)) h2
  · obtain ⟨_, _, h⟩ := Functor.bind_ok_iff.1 h
    obtain ⟨⟨a, b, c⟩, _, h⟩ := Functor.bind_ok_iff.1 h
    obtain ⟨i, hi, h⟩ := Functor.bind_ok_iff.1 h
    obtain ⟨c, hc, h⟩ := Functor.bind_ok_iff.1 h
    obtain ⟨d1, h1, h⟩ := Functor.bind_ok_iff.1 h
    simp only [Except.ok.injEq] at h; subst h
    have hI := hr.1.andThen hr.2 hi
    exact ⟨hl.1, ((Planar.id _).tensor (((Planar.id _).tensor hI).andThen ((Planar.cup hc).tensor (Planar.id _)) h1)).tensor
      (Planar.id _)⟩
  · obtain ⟨_, _, h⟩ := Functor.bind_ok_iff.1 h
    obtain ⟨⟨a, b, c⟩, _, h⟩ := Functor.bind_ok_iff.1 h
    obtain ⟨i, hi, h⟩ := Functor.bind_ok_iff.1 h
    obtain ⟨c, hc, h⟩ := Functor.bind_ok_iff.1 h
    obtain ⟨d1, h1, h⟩ := Functor.bind_ok_iff.1 h
    simp only [Except.ok.injEq] at h; subst h
    have hI := hl.1.andThen hl.2 hi
    exact ⟨hr.1, ((Planar.id _).tensor ((hI.tensor (Planar.id _)).andThen ((Planar.id _).tensor (Planar.cup hc)) h1)).tensor
      (Planar.id _)⟩
  · simp at h

theorem planar_aux : ∀ (t : Tree) (p : GDiagram × GDiagram), toDiagramAux true t = .ok p → Planar p.1 ∧ Planar p.2
  | leaf w t, p, h => by
      rw [toDiagramAux] at h
      split at h
      · simp only [Except.ok.injEq] at h; subst h; exact ⟨Planar.id _, Planar.id _⟩
      · simp only [Except.ok.injEq] at h; subst h
        refine ⟨?_, Planar.id _⟩
        intro b hb x y
        simp only [Diagram.boxes, ofBox, List.map_cons, List.map_nil, List.mem_singleton] at hb
        rw [hb]; simp
  | un rule t c, p, h => by
      rw [toDiagramAux] at h
      split at h
      · simp at h
      · next hr =>
        obtain ⟨layer, hL, h⟩ := Functor.bind_ok_iff.1 h
        obtain ⟨q, hq, h⟩ := Functor.bind_ok_iff.1 h
        have hx : isCrossed rule = false := by
          cases rule <;> first | rfl | (simp [Rule.apply] at hL)
        exact planar_join1 (planar_aux c q hq) (planar_apply hx hL) h
  | bin rule t l r, p, h => by
      rw [toDiagramAux] at h
      obtain ⟨layer, hL, h⟩ := Functor.bind_ok_iff.1 h
      obtain ⟨q, hq, h⟩ := Functor.bind_ok_iff.1 h
      obtain ⟨q', hq', h⟩ := Functor.bind_ok_iff.1 h
      split at h
      · exact planar_crossed (planar_aux l q hq) (planar_aux r q' hq') h
      · next hx =>
        simp only [Bool.true_and, Bool.not_eq_true] at hx
        exact planar_joinChildren (planar_aux l q hq) (planar_aux r q' hq') (planar_apply hx hL) h

/-- **C32**: whatever the tree, a diagram returned with `planar=True` has no crossing wires. -/
theorem C32_planar_no_swaps (t : Tree) (collapseNP : Bool) (d : GDiagram)
    (h : toDiagram t true collapseNP = .ok d) : Planar d := by
  have h : ((if collapseNP then collapse t else .ok t) >>= fun t' => resolved t' t'.ty >>= fun res =>
      toDiagramAux true res >>= fun p => andThen p.1 p.2) = .ok d := by
    rw [← h]; unfold toDiagram; cases collapseNP <;> rfl
  obtain ⟨_, _, h⟩ := Functor.bind_ok_iff.1 h
  obtain ⟨res, _, h⟩ := Functor.bind_ok_iff.1 h
  obtain ⟨p, hp, h⟩ := Functor.bind_ok_iff.1 h
  have := planar_aux res p hp
  exact this.1.andThen this.2 h

/-! ## Correctness of planar diagrams without generalised crossing -/

theorem wordNames_append {f g r : GDiagram} (h : andThen f g = .ok r) : wordNames r = wordNames f ++ wordNames g := by
  obtain ⟨_, rfl⟩ := andThen_ok_iff.1 h
  simp [wordNames, Diagram.boxes]

theorem wordNames_id (t : Ty) : wordNames (Diagram.id t) = [] := by simp [wordNames, boxes_id]

theorem wordNames_good {g : GDiagram} (h : ∀ b ∈ g.boxes, WireBox b) : wordNames g = [] := by
  unfold wordNames
  rw [List.filterMap_eq_nil_iff]
  intro b hb
  rcases h b hb with ⟨x, y, rfl, _⟩ | ⟨x, y, rfl, _⟩ | ⟨x, y, rfl⟩ <;> rfl

/-- Only words and wires. -/
def WordOrWire (b : Box) : Prop := IsWord b ∨ WireBox b

structure PParts (names : List String) (out : Ty) (w g : GDiagram) : Prop where
  wWT : w.WT
  wdom : w.dom = []
  wcod : w.cod = g.dom
  wbox : ∀ b ∈ w.boxes, WordOrWire b
  gWT : g.WT
  gbox : ∀ b ∈ g.boxes, WordOrWire b
  gcod : g.cod = out
  wname : (wordNames w ++ wordNames g).Perm names

theorem mem_boxes_andThen {f g r : GDiagram} {P : Box → Prop} (hf : ∀ b ∈ f.boxes, P b)
    (hg : ∀ b ∈ g.boxes, P b) (h : andThen f g = .ok r) : ∀ b ∈ r.boxes, P b := by
  obtain ⟨_, rfl⟩ := andThen_ok_iff.1 h
  intro b hb
  simp only [Diagram.boxes, List.map_append, List.mem_append] at hb
  rcases hb with h | h
  · exact hf b h
  · exact hg b h

theorem mem_boxes_tensor {f g : GDiagram} {P : Box → Prop} (hf : ∀ b ∈ f.boxes, P b)
    (hg : ∀ b ∈ g.boxes, P b) : ∀ b ∈ (tensor f g).boxes, P b := by
  intro b hb
  rw [boxes_tensor] at hb
  rcases List.mem_append.1 hb with h | h
  · exact hf b h
  · exact hg b h

theorem mem_boxes_id {t : Ty} {P : Box → Prop} : ∀ b ∈ (Diagram.id t : GDiagram).boxes, P b := by
  simp [boxes_id]

theorem PParts.tensor {n n' : List String} {o o' : Ty} {w g w' g' : GDiagram} (h : PParts n o w g)
    (h' : PParts n' o' w' g') : PParts (n ++ n') (o ++ o') (Diagram.tensor w w') (Diagram.tensor g g') where
  wWT := h.wWT.tensor h'.wWT
  wdom := by simp [tensor_dom, h.wdom, h'.wdom]
  wcod := by rw [tensor_cod, tensor_dom, h.wcod, h'.wcod]
  wbox := mem_boxes_tensor h.wbox h'.wbox
  gWT := h.gWT.tensor h'.gWT
  gbox := mem_boxes_tensor h.gbox h'.gbox
  gcod := by rw [tensor_cod, h.gcod, h'.gcod]
  wname := by
    rw [wordNames_tensor, wordNames_tensor]
    have := h.wname.append h'.wname
    refine List.Perm.trans ?_ this
    simp only [List.append_assoc]
    refine List.Perm.append_left _ ?_
    rw [← List.append_assoc, ← List.append_assoc]
    exact List.Perm.append_right _ List.perm_append_comm

theorem PParts.layer {n : List String} {o o' : Ty} {w g layer : GDiagram} (h : PParts n o w g)
    (hl : Good layer) (hd : layer.dom = o) (hc : layer.cod = o') :
    ∃ g', andThen g layer = .ok g' ∧ PParts n o' w g' := by
  have e : g.cod = layer.dom := by rw [h.gcod, hd]
  have hok := andThen_eq_ok e
  refine ⟨_, hok, h.wWT, h.wdom, h.wcod, h.wbox, h.gWT.andThen hl.1 hok,
    mem_boxes_andThen h.gbox (fun b hb => .inr (hl.2 b hb)) hok, hc, ?_⟩
  rw [wordNames_append hok, wordNames_good hl.2, List.append_nil]
  exact h.wname

theorem PParts.empty : PParts [] [] (Diagram.id []) (Diagram.id []) :=
  ⟨WT.id _, rfl, rfl, mem_boxes_id, WT.id _, mem_boxes_id, rfl, by simp [wordNames_id]⟩

/-- The inner sentence `words >> grammar` of a subtree. -/
theorem PParts.inner {n : List String} {o : Ty} {w g : GDiagram} (h : PParts n o w g) :
    ∃ d, andThen w g = .ok d ∧ d.WT ∧ d.dom = [] ∧ d.cod = o ∧ (∀ b ∈ d.boxes, WordOrWire b) ∧
      (wordNames d).Perm n := by
  have hok := andThen_eq_ok h.wcod
  refine ⟨_, hok, h.wWT.andThen h.gWT hok, h.wdom, h.gcod, mem_boxes_andThen h.wbox h.gbox hok, ?_⟩
  rw [wordNames_append hok]
  exact h.wname

theorem bx_spec {x y z : Cat} {nl nr : List String} {wl gl wr gr : GDiagram}
    (hl : PParts nl (Cat.over y z).toTy wl gl) (hr : PParts nr (Cat.under x y).toTy wr gr) :
    ∃ p, planarCrossed .bx (.over x z) (.over y z) (.under x y) (wl, gl) (wr, gr) = .ok p ∧
      PParts (nl ++ nr) (Cat.over x z).toTy p.1 p.2 := by
  obtain ⟨i, hi, iWT, idom, icod, ibox, iname⟩ := hr.inner
  obtain ⟨c, hc, _, hc1, hc2, _⟩ := (cup_spec y.toTy).1
  have gc := (Good.cup hc).1
  let m : GDiagram := tensor (tensor (Diagram.id y.toTy) i) (Diagram.id (Ty.l z.toTy))
  have e1 : gl.cod = m.dom := by simp [m, hl.gcod, tensor_dom, Diagram.id, idom, Cat.toTy]
  have ok1 := andThen_eq_ok e1
  generalize hD : (Diagram.mk _ _ _ : GDiagram) = D at ok1
  have hDc : D.cod = m.cod := by rw [← hD]
  let n : GDiagram := tensor c (Diagram.id (x.toTy ++ Ty.l z.toTy))
  have e2 : D.cod = n.dom := by
    rw [hDc]; simp [m, n, tensor_dom, tensor_cod, Diagram.id, icod, hc1, Cat.toTy]
  have ok2 := andThen_eq_ok e2
  generalize hD2 : (Diagram.mk _ _ _ : GDiagram) = D2 at ok2
  have gDm : D.dom = gl.dom := by rw [← hD]
  have gD2 : D2.dom = gl.dom := by rw [← hD2]; exact gDm
  have gD2c : D2.cod = n.cod := by rw [← hD2]
  have mWT : m.WT := ((WT.id _).tensor iWT).tensor (WT.id _)
  have mbox : ∀ b ∈ m.boxes, WordOrWire b := mem_boxes_tensor (mem_boxes_tensor mem_boxes_id ibox) mem_boxes_id
  have nWT : n.WT := gc.1.tensor (WT.id _)
  have nbox : ∀ b ∈ n.boxes, WordOrWire b := mem_boxes_tensor (fun b hb => .inr (gc.2 b hb)) mem_boxes_id
  refine ⟨(wl, D2), ?_, hl.wWT, hl.wdom, by rw [gD2]; exact hl.wcod, hl.wbox, (hl.gWT.andThen mWT ok1).andThen nWT ok2,
    mem_boxes_andThen (mem_boxes_andThen hl.gbox mbox ok1) nbox ok2, ?_, ?_⟩
  · simp only [planarCrossed, Cat.left, Cat.right, ok_bind, hi, hc]
    show (andThen gl m >>= fun d1 => andThen d1 n >>= fun d2 => Except.ok (wl, d2)) = _
    rw [ok1, ok_bind, ok2, ok_bind]
  · show D2.cod = _
    rw [gD2c]; simp [n, tensor_cod, hc2, Diagram.id, Cat.toTy]
  · show (wordNames wl ++ wordNames D2).Perm _
    rw [wordNames_append ok2, wordNames_append ok1]
    simp only [m, n, wordNames_tensor, wordNames_id, wordNames_good gc.2, List.nil_append, List.append_nil,
      ← List.append_assoc]
    exact hl.wname.append iname

theorem fx_spec {x y z : Cat} {nl nr : List String} {wl gl wr gr : GDiagram}
    (hl : PParts nl (Cat.over x y).toTy wl gl) (hr : PParts nr (Cat.under y z).toTy wr gr) :
    ∃ p, planarCrossed .fx (.under x z) (.over x y) (.under y z) (wl, gl) (wr, gr) = .ok p ∧
      PParts (nl ++ nr) (Cat.under x z).toTy p.1 p.2 := by
  obtain ⟨i, hi, iWT, idom, icod, ibox, iname⟩ := hl.inner
  obtain ⟨c, hc, _, hc1, hc2, _⟩ := (cup_spec y.toTy).2
  have gc := (Good.cup hc).1
  let m : GDiagram := tensor (tensor (Diagram.id (Ty.r z.toTy)) i) (Diagram.id y.toTy)
  have e1 : gr.cod = m.dom := by simp [m, hr.gcod, tensor_dom, Diagram.id, idom, Cat.toTy]
  have ok1 := andThen_eq_ok e1
  generalize hD : (Diagram.mk _ _ _ : GDiagram) = D at ok1
  have hDc : D.cod = m.cod := by rw [← hD]
  let n : GDiagram := tensor (Diagram.id (Ty.r z.toTy ++ x.toTy)) c
  have e2 : D.cod = n.dom := by
    rw [hDc]; simp [m, n, tensor_dom, tensor_cod, Diagram.id, icod, hc1, Cat.toTy]
  have ok2 := andThen_eq_ok e2
  generalize hD2 : (Diagram.mk _ _ _ : GDiagram) = D2 at ok2
  have gDm : D.dom = gr.dom := by rw [← hD]
  have gD2 : D2.dom = gr.dom := by rw [← hD2]; exact gDm
  have gD2c : D2.cod = n.cod := by rw [← hD2]
  have mWT : m.WT := ((WT.id _).tensor iWT).tensor (WT.id _)
  have mbox : ∀ b ∈ m.boxes, WordOrWire b := mem_boxes_tensor (mem_boxes_tensor mem_boxes_id ibox) mem_boxes_id
  have nWT : n.WT := (WT.id _).tensor gc.1
  have nbox : ∀ b ∈ n.boxes, WordOrWire b := mem_boxes_tensor mem_boxes_id (fun b hb => .inr (gc.2 b hb))
  refine ⟨(wr, D2), ?_, hr.wWT, hr.wdom, by rw [gD2]; exact hr.wcod, hr.wbox, (hr.gWT.andThen mWT ok1).andThen nWT ok2,
    mem_boxes_andThen (mem_boxes_andThen hr.gbox mbox ok1) nbox ok2, ?_, ?_⟩
  · simp only [planarCrossed, Cat.left, Cat.right, ok_bind, hi, hc]
    show (andThen gr m >>= fun d1 => andThen d1 n >>= fun d2 => Except.ok (wr, d2)) = _
    rw [ok1, ok_bind, ok2, ok_bind]
  · show D2.cod = _
    rw [gD2c]; simp [n, tensor_cod, hc2, Diagram.id, Cat.toTy]
  · show (wordNames wr ++ wordNames D2).Perm _
    rw [wordNames_append ok2, wordNames_append ok1]
    simp only [m, n, wordNames_tensor, wordNames_id, wordNames_good gc.2, List.nil_append, List.append_nil,
      ← List.append_assoc]
    exact (hr.wname.append iname).trans List.perm_append_comm

theorem pbase {t : Cat} {w : String} (h : t ≠ Cat.PUNC) :
    toDiagramAux true (leaf w t) = .ok (ofBox (.word w t.toTy 0), Diagram.id t.toTy) ∧
      PParts [w] t.toTy (ofBox (.word w t.toTy 0)) (Diagram.id t.toTy) := by
  refine ⟨by rw [toDiagramAux, if_neg h], WT.ofBox _, rfl, rfl, ?_, WT.id _, mem_boxes_id, rfl, by simp [wordNames, Diagram.boxes, ofBox, Diagram.id]⟩
  intro b hb
  simp only [Diagram.boxes, ofBox, List.map_cons, List.map_nil, List.mem_singleton] at hb
  exact .inl ⟨w, t.toTy, hb⟩

theorem resolved_leaf (w : String) (x t : Cat) : resolved (leaf w x) t = .ok (leaf w t) := by
  rw [resolved]; split
  · next he => rw [he]
  · rfl

theorem pjoin {rule : Rule} {t a b : Cat} {l' r' : Tree} {nl nr : List String} {wl gl wr gr : GDiagram}
    (hL : Licensed rule [a, b] t) (hg : rule = .gbc → ∀ x y, b = .under x y → y.toTy ≠ [])
    (n1 : rule ≠ .lp) (n2 : rule ≠ .rp) (n3 : rule ≠ .gbx) (n4 : rule ≠ .gfx)
    (hta : l'.ty = a) (htb : r'.ty = b) (hl : toDiagramAux true l' = .ok (wl, gl))
    (hr : toDiagramAux true r' = .ok (wr, gr)) (pl : PParts nl a.toTy wl gl) (pr : PParts nr b.toTy wr gr) :
    ∃ w g, toDiagramAux true (.bin rule t l' r') = .ok (w, g) ∧ PParts (nl ++ nr) t.toTy w g := by
  obtain ⟨layer, l1, l2, l3, l4⟩ := Rule.C29_apply rule [a, b] t hL (by
    intro hgb l0 x y he
    simp only [List.cons.injEq] at he
    exact hg hgb x y he.2.1)
  by_cases hx : isCrossed rule = true
  · have hp : ∃ p, planarCrossed rule t a b (wl, gl) (wr, gr) = .ok p ∧ PParts (nl ++ nr) t.toTy p.1 p.2 := by
      cases hL with
      | bx x y z => exact bx_spec pl pr
      | fx x y z => exact fx_spec pl pr
      | gbx => exact absurd rfl n3
      | gfx => exact absurd rfl n4
      | _ => simp [isCrossed] at hx
    obtain ⟨p, hp, hP⟩ := hp
    refine ⟨p.1, p.2, ?_, hP⟩
    rw [toDiagramAux, hta, htb, l1, ok_bind, hl, ok_bind, hr, ok_bind]
    simp only [hx, Bool.and_self, if_true, hp]
  · obtain ⟨g', g1, g2⟩ := (pl.tensor pr).layer (Rule.C29_wellTyped _ _ _ _ l1) (by rw [l3, wires_two n1 n2]) l4
    refine ⟨tensor wl wr, g', ?_, g2⟩
    rw [toDiagramAux, hta, htb, l1, ok_bind, hl, ok_bind, hr, ok_bind]
    simp only [hx, Bool.and_false, Bool.false_eq_true, if_false, join2, g1]
    rfl

theorem planar_spec {t : Tree} (h : Proper t) (hn : t.NoGenCrossed) :
    ∃ t' w g, resolved t t.ty = .ok t' ∧ toDiagramAux true t' = .ok (w, g) ∧ PParts t.spoken t.ty.toTy w g := by
  induction h with
  | leaf w t hne => exact ⟨_, _, _, resolved_leaf _ _ _, (pbase hne).1, (pbase hne).2⟩
  | raise r t c hr h hc ih =>
    obtain ⟨c', w, g, h1, h2, h3⟩ := ih hn
    have hs := Rule.C31_resolve_stable r _ _ h
    have hty := resolved_ty _ _ _ h1
    obtain ⟨layer, l1, l2, l3, l4⟩ := Rule.C29_apply r [c.ty] t h (by simp)
    obtain ⟨g', g1, g2⟩ := h3.layer (Rule.C29_wellTyped _ _ _ _ l1) (by rw [l3, wires_one]) l4
    refine ⟨_, w, g', resolved_un hr hs h1, ?_, g2⟩
    rw [toDiagramAux, if_neg hr, hty, ty_un, l1, ok_bind, h2, ok_bind, join1, g1]
    rfl
  | same c hc ih =>
    obtain ⟨c', w, g, h1, h2, h3⟩ := ih hn
    refine ⟨c', w, g, ?_, h2, h3⟩
    rw [ty_un, resolved, if_pos rfl]
    have : dirSwap c.ty c.ty = false := by cases c.ty <;> rfl
    rw [this]; simpa using h1
  | relabel w x t hne hd =>
    refine ⟨_, _, _, ?_, (pbase (w := w) hne).1, (pbase hne).2⟩
    have : dirSwap t x = false := by
      cases t <;> cases x <;> simp_all [dirSwap, Cat.isOver, Cat.isUnder]
    rw [ty_un, resolved, if_pos rfl, ty_leaf, this]
    exact resolved_leaf _ _ _
  | lp w r hr ih =>
    obtain ⟨r', w', g, h1, h2, h3⟩ := ih hn.2.2.2
    have hty := resolved_ty _ _ _ h1
    obtain ⟨g', g1, g2⟩ := (PParts.empty.tensor h3).layer (Good.id r.ty.toTy) rfl rfl
    refine ⟨.bin .lp r.ty (.leaf w Cat.PUNC) r', _, g', resolved_bin (a := Cat.PUNC) (b := r.ty) rfl (resolved_leaf _ _ _) h1, ?_, g2⟩
    rw [toDiagramAux]
    simp only [Rule.apply, Rule.applyBin, ty_leaf, hty, ok_bind, toDiagramAux, if_true, h2, isCrossed,
      Bool.and_false, Bool.false_eq_true, if_false, join2, g1]
    rfl
  | rp w l hl ih =>
    obtain ⟨l', w', g, h1, h2, h3⟩ := ih hn.2.2.1
    have hty := resolved_ty _ _ _ h1
    have hP := h3.tensor PParts.empty
    simp only [List.append_nil] at hP
    obtain ⟨g', g1, g2⟩ := hP.layer (Good.id l.ty.toTy) rfl rfl
    refine ⟨.bin .rp l.ty l' (.leaf w Cat.PUNC), _, g', resolved_bin (a := l.ty) (b := Cat.PUNC) rfl h1 (resolved_leaf _ _ _), ?_, g2⟩
    rw [toDiagramAux]
    simp only [Rule.apply, Rule.applyBin, ty_leaf, hty, ok_bind, toDiagramAux, if_true, h2, isCrossed,
      Bool.and_false, Bool.false_eq_true, if_false, join2, g1]
    rfl
  | conjL w x t r hx hr ih =>
    obtain ⟨r', wr, gr, h1, h2, h3⟩ := ih hn.2.2.2
    have hj := (conjoinable_iff x).2 hx
    have hne : Cat.over t r.ty ≠ Cat.PUNC := by simp [Cat.PUNC]
    obtain ⟨W, G, e, hP⟩ := pjoin (l' := .leaf w (.over t r.ty)) (Licensed.fa t r.ty) (by simp) (by simp) (by simp) (by simp) (by simp)
      rfl (resolved_ty _ _ _ h1) (pbase (w := w) hne).1 h2 (pbase hne).2 h3
    have hb : binRule .conj (.leaf w x) = .fa := by simp [binRule, ty_leaf, hj]
    have hd : binDom .conj (.leaf w x) r t = .ok [.over t r.ty, r.ty] := by
      simp [binDom, resolve, Rule.resolveBin, ty_leaf, hj]
    have hres := resolved_bin (t := t) hd (resolved_leaf w x _) h1
    rw [hb] at hres
    exact ⟨_, W, G, hres, e, hP⟩
  | conjR w x t l hx hn' hl ih =>
    obtain ⟨l', wl, gl, h1, h2, h3⟩ := ih hn.2.2.1
    have hj := (conjoinable_iff x).2 hx
    have hj' : l.ty.isConjoinable = false := by
      cases hh : l.ty.isConjoinable with
      | false => rfl
      | true => rcases (conjoinable_iff _).1 hh with h | h
                · exact absurd h hn'.1
                · exact absurd h hn'.2
    have hne : Cat.under t l.ty ≠ Cat.PUNC := by simp [Cat.PUNC]
    obtain ⟨W, G, e, hP⟩ := pjoin (r' := .leaf w (.under t l.ty)) (Licensed.ba t l.ty) (by simp) (by simp) (by simp) (by simp) (by simp)
      (resolved_ty _ _ _ h1) rfl h2 (pbase (w := w) hne).1 h3 (pbase hne).2
    have hb : binRule .conj l = .ba := by simp [binRule, hj']
    have hd : binDom .conj l (.leaf w x) t = .ok [l.ty, .under t l.ty] := by
      simp [binDom, resolve, Rule.resolveBin, ty_leaf, hj, hj']
    have hres := resolved_bin (t := t) hd h1 (resolved_leaf w x _)
    rw [hb] at hres
    exact ⟨_, W, G, hres, e, hP⟩
  | bin rule t l r h hr hne hl hr' ihl ihr =>
    obtain ⟨n3, n4, hnl, hnr⟩ := hn
    obtain ⟨l', wl, gl, a1, a2, a3⟩ := ihl hnl
    obtain ⟨r', wr, gr, b1, b2, b3⟩ := ihr hnr
    obtain ⟨hrule, hdom, hgb⟩ := proper_bin h hne hl
    obtain ⟨W, G, e, hP⟩ := pjoin h hgb hr.1 hr.2 n3 n4 (resolved_ty _ _ _ a1) (resolved_ty _ _ _ b1) a2 b2 a3 b3
    have hres := resolved_bin (t := t) hdom a1 b1
    rw [hrule] at hres
    have hsp : (Tree.bin rule t l r).spoken = l.spoken ++ r.spoken := by
      cases rule <;> first | rfl | (exact absurd rfl hr.1) | (exact absurd rfl hr.2)
    exact ⟨_, W, G, hres, e, by rw [hsp]; exact hP⟩

/-- **C32**, planar: for every derivation tree without generalised crossed composition, `planar=True`
yields, without error, a well-typed diagram without crossings from no wires to the root category; its
boxes are wires and the words of the sentence, each exactly as often as it is spoken (their order may
change: crossed composition moves a phrase inside another). -/
theorem C32_planar (t : Tree) (h : Proper t) (hn : t.NoGenCrossed) :
    ∃ d, toDiagram t true false = .ok d ∧ d.WT ∧ d.dom = [] ∧ d.cod = t.ty.toTy ∧ Planar d ∧
      (wordNames d).Perm t.spoken ∧ ∀ b ∈ d.boxes, IsWord b ∨ WireBox b := by
  obtain ⟨t', w, g, h1, h2, h3⟩ := planar_spec h hn
  obtain ⟨d, hd, dWT, ddom, dcod, dbox, dname⟩ := h3.inner
  have e : toDiagram t true false = .ok d := by
    simp only [toDiagram, Bool.false_eq_true, if_false, ok_bind, h1, h2, hd]
  exact ⟨d, e, dWT, ddom, dcod, C32_planar_no_swaps t false d e, dname, dbox⟩

/-! ## Collapsing noun phrases -/

theorem replace_np {t : Cat} (h : t.NoEmpty) : Cat.replace Cat.NP Cat.NOUN t = .ok (nounify t) := by
  induction t with
  | empty => exact h.elim
  | atom n =>
    simp only [Cat.replace, Cat.NP, Cat.atom.injEq, nounify, Cat.NOUN]
    split <;> rfl
  | over x y ihx ihy =>
    simp [Cat.replace, Cat.NP, nounify] at ihx ihy ⊢
    rw [ihx h.1, ok_bind, ihy h.2, ok_bind]
  | under x y ihx ihy =>
    simp [Cat.replace, Cat.NP, nounify] at ihx ihy ⊢
    rw [ihx h.1, ok_bind, ihy h.2, ok_bind]

/-- The tree with `np` read as `n` throughout. -/
def nounifyTree : Tree → Tree
  | leaf w t => leaf w (nounify t)
  | un r t c => un r (nounify t) c.nounifyTree
  | bin r t a b => bin r (nounify t) a.nounifyTree b.nounifyTree

theorem collapse_eq : ∀ (t : Tree), t.AllNoEmpty → collapse t = .ok t.nounifyTree
  | leaf w t, h => by rw [collapse, replace_np h, ok_bind]; rfl
  | un r t c, h => by rw [collapse, replace_np h.1, ok_bind, collapse_eq c h.2, ok_bind]; rfl
  | bin r t a b, h => by
      rw [collapse, replace_np h.1, ok_bind, collapse_eq a h.2.1, ok_bind, collapse_eq b h.2.2, ok_bind]; rfl

theorem nounifyTree_ty (t : Tree) : t.nounifyTree.ty = nounify t.ty := by cases t <;> rfl

theorem nounifyTree_spoken : ∀ (t : Tree), t.nounifyTree.spoken = t.spoken
  | leaf w t => rfl
  | un r t c => nounifyTree_spoken c
  | bin r t a b => by
      cases r <;> simp [nounifyTree, spoken, nounifyTree_spoken a, nounifyTree_spoken b]

def nounifyCtx (k : Cat.Ctx) : Cat.Ctx := k.map (fun e => (e.1, nounify e.2))

theorem nounify_plug (k : Cat.Ctx) (x : Cat) : nounify (Cat.plug k x) = Cat.plug (nounifyCtx k) (nounify x) := by
  induction k with
  | nil => rfl
  | cons e k ih => obtain ⟨d, a⟩ := e; cases d <;> simp [Cat.plug, nounify, nounifyCtx, Cat.slash, ih]

theorem licensed_nounify {r : Rule} {dom : List Cat} {cod : Cat} (h : Licensed r dom cod) :
    Licensed r (dom.map nounify) (nounify cod) := by
  have hk : ∀ (k : Cat.Ctx) (b : Bool), (∀ e ∈ k, e.1 = b) → ∀ e ∈ nounifyCtx k, e.1 = b := by
    intro k b h e he
    obtain ⟨e', he', rfl⟩ := List.mem_map.1 he
    exact h e' he'
  cases h <;> simp only [List.map_cons, List.map_nil, nounify_plug, nounify]
  case unary => exact .unary _
  case ftr x t => exact .ftr _ _
  case btr x t => exact .btr _ _
  case fa => exact .fa _ _
  case ba => exact .ba _ _
  case fc x y z => exact .fc _ _ _
  case bc x y z => exact .bc _ _ _
  case fx x y z => exact .fx _ _ _
  case bx x y z => exact .bx _ _ _
  case gfc x y z k h => exact .gfc _ _ _ _ (hk _ _ h)
  case gbc x y z k h => exact .gbc _ _ _ _ (hk _ _ h)
  case gfx x y z k => exact .gfx _ _ _ _
  case gbx x y z k => exact .gbx _ _ _ _
  case lp => exact .lp _
  case rp => exact .rp _

theorem nounify_noEmpty {t : Cat} (h : t.NoEmpty) : (nounify t).NoEmpty := by
  induction t with
  | empty => exact h
  | atom n => simp only [nounify]; split <;> trivial
  | over x y ihx ihy => exact ⟨ihx h.1, ihy h.2⟩
  | under x y ihx ihy => exact ⟨ihx h.1, ihy h.2⟩

theorem nounify_atom {t : Cat} {n : String} (hn : n ≠ "n") (h : nounify t = .atom n) : t = .atom n := by
  cases t with
  | empty => simp [nounify] at h
  | atom m =>
    simp only [nounify] at h
    split at h
    · simp only [Cat.atom.injEq] at h; exact absurd h.symm hn
    · exact h
  | over x y => simp [nounify] at h
  | under x y => simp [nounify] at h

theorem proper_nounify {t : Tree} (h : Proper t) : Proper t.nounifyTree := by
  have hP : ∀ {t : Cat}, t ≠ Cat.PUNC → nounify t ≠ Cat.PUNC := fun h e => h (nounify_atom (by decide) e)
  have hC : ∀ {t : Cat}, t ≠ Cat.CONJ → nounify t ≠ Cat.CONJ := fun h e => h (nounify_atom (by decide) e)
  induction h with
  | leaf w t h => exact .leaf _ _ (hP h)
  | raise r t c hr h hc ih =>
    refine .raise _ _ _ hr ?_ ih
    rw [nounifyTree_ty]; exact licensed_nounify h
  | same c hc ih =>
    have := Proper.same _ ih
    rw [nounifyTree_ty] at this; exact this
  | relabel w x t h hd =>
    refine .relabel _ _ _ (hP h) ?_
    intro hh
    apply hd
    rcases hh with ⟨a, b, c, d, e1, e2⟩ | ⟨a, b, c, d, e1, e2⟩
    · left
      cases t <;> simp [nounify] at e1 <;> try (split at e1 <;> simp at e1)
      cases x <;> simp [nounify] at e2 <;> try (split at e2 <;> simp at e2)
      exact ⟨_, _, _, _, rfl, rfl⟩
    · right
      cases t <;> simp [nounify] at e1 <;> try (split at e1 <;> simp at e1)
      cases x <;> simp [nounify] at e2 <;> try (split at e2 <;> simp at e2)
      exact ⟨_, _, _, _, rfl, rfl⟩
  | lp w r hr ih =>
    have := Proper.lp w _ ih
    rw [nounifyTree_ty] at this; exact this
  | rp w l hl ih =>
    have := Proper.rp w _ ih
    rw [nounifyTree_ty] at this; exact this
  | conjL w x t r hx hr ih =>
    refine .conjL w _ _ _ ?_ ih
    rcases hx with rfl | rfl
    · left; rfl
    · right; rfl
  | conjR w x t l hx hn hl ih =>
    refine .conjR w _ _ _ ?_ ?_ ih
    · rcases hx with rfl | rfl
      · left; rfl
      · right; rfl
    · rw [nounifyTree_ty]; exact ⟨hC hn.1, hP hn.2⟩
  | bin rule t l r h hr hne hl hr' ihl ihr =>
    refine .bin _ _ _ _ ?_ hr ?_ ihl ihr
    · rw [nounifyTree_ty, nounifyTree_ty]; exact licensed_nounify h
    · rw [nounifyTree_ty]; exact nounify_noEmpty hne

/-- **C32** with `collapse_noun_phrases=True` (the default): as `C32_toDiagram`, the root category read
with `n` for `np`. -/
theorem C32_collapse (t : Tree) (h : Proper t) (hne : t.AllNoEmpty) :
    ∃ d w g, toDiagram t false true = .ok d ∧ d.WT ∧ d.dom = [] ∧ d.cod = (nounify t.ty).toTy ∧
      wordNames d = t.spoken ∧
      d.boxes = w ++ g ∧ (∀ b ∈ w, IsWord b) ∧ (∀ b ∈ g, WireBox b) := by
  obtain ⟨d, w, g, h1, h2, h3, h4, h5, h6⟩ := C32_toDiagram _ (proper_nounify h)
  refine ⟨d, w, g, ?_, h2, h3, ?_, ?_, h6⟩
  · rw [← h1]; simp [toDiagram, collapse_eq t hne, ok_bind]
  · rw [h4, nounifyTree_ty]
  · rw [h5, nounifyTree_spoken]

/-! ## Arbitrary trees -/

theorem resolved_leaves : ∀ (t : Tree) (out : Cat) (t' : Tree), resolved t out = .ok t' → t'.leaves = t.leaves
  | leaf w x, out, t', h => by
      rw [resolved_leaf] at h
      simp only [Except.ok.injEq] at h; subst h; rfl
  | un rule x c, out, t', h => by
      rw [resolved] at h
      split at h
      · split at h
        · obtain ⟨c', hc, h⟩ := Functor.bind_ok_iff.1 h
          have := resolved_leaves c _ _ hc
          split at h <;> (simp only [Except.ok.injEq] at h; subst h; simp [leaves, this])
        · exact resolved_leaves c out t' h
      · obtain ⟨_, _, h⟩ := Functor.bind_ok_iff.1 h
        obtain ⟨_, _, h⟩ := Functor.bind_ok_iff.1 h
        obtain ⟨c', hc, h⟩ := Functor.bind_ok_iff.1 h
        have := resolved_leaves c _ _ hc
        split at h <;> (simp only [Except.ok.injEq] at h; subst h; simp [leaves, this])
  | bin rule x l r, out, t', h => by
      rw [resolved] at h
      obtain ⟨_, _, h⟩ := Functor.bind_ok_iff.1 h
      obtain ⟨_, _, h⟩ := Functor.bind_ok_iff.1 h
      obtain ⟨l', hl, h⟩ := Functor.bind_ok_iff.1 h
      obtain ⟨_, _, h⟩ := Functor.bind_ok_iff.1 h
      obtain ⟨r', hr, h⟩ := Functor.bind_ok_iff.1 h
      have e1 := resolved_leaves l _ _ hl
      have e2 := resolved_leaves r _ _ hr
      split at h <;> (simp only [Except.ok.injEq] at h; subst h; simp [leaves, e1, e2])

theorem collapse_leaves : ∀ (t t' : Tree), collapse t = .ok t' → t'.leaves = t.leaves
  | leaf w t, t', h => by
      rw [collapse] at h
      obtain ⟨_, _, h⟩ := Functor.bind_ok_iff.1 h
      simp only [Except.ok.injEq] at h; subst h; rfl
  | un r t c, t', h => by
      rw [collapse] at h
      obtain ⟨_, _, h⟩ := Functor.bind_ok_iff.1 h
      obtain ⟨c', hc, h⟩ := Functor.bind_ok_iff.1 h
      simp only [Except.ok.injEq] at h; subst h
      exact collapse_leaves c c' hc
  | bin r t a b, t', h => by
      rw [collapse] at h
      obtain ⟨_, _, h⟩ := Functor.bind_ok_iff.1 h
      obtain ⟨a', ha, h⟩ := Functor.bind_ok_iff.1 h
      obtain ⟨b', hb, h⟩ := Functor.bind_ok_iff.1 h
      simp only [Except.ok.injEq] at h; subst h
      simp [leaves, collapse_leaves a a' ha, collapse_leaves b b' hb]

theorem aux_any : ∀ (t : Tree) (w g : GDiagram), toDiagramAux false t = .ok (w, g) →
    w.WT ∧ w.dom = [] ∧ (∀ b ∈ w.boxes, IsWord b) ∧ (wordNames w).Sublist t.leaves ∧ Good g
  | leaf x t, w, g, h => by
      rw [toDiagramAux] at h
      split at h
      · simp only [Except.ok.injEq, Prod.mk.injEq] at h
        obtain ⟨rfl, rfl⟩ := h
        exact ⟨WT.id _, rfl, mem_boxes_id, by simp [wordNames_id], Good.id _⟩
      · simp only [Except.ok.injEq, Prod.mk.injEq] at h
        obtain ⟨rfl, rfl⟩ := h
        refine ⟨WT.ofBox _, rfl, ?_, by simp [wordNames, Diagram.boxes, ofBox, leaves], Good.id _⟩
        intro b hb
        simp only [Diagram.boxes, ofBox, List.map_cons, List.map_nil, List.mem_singleton] at hb
        exact ⟨x, t.toTy, hb⟩
  | un rule t c, w, g, h => by
      rw [toDiagramAux] at h
      have key : ∀ (layer : GDiagram), Good layer → (toDiagramAux false c >>= fun p => joinChildren [p] layer) = .ok (w, g) →
          w.WT ∧ w.dom = [] ∧ (∀ b ∈ w.boxes, IsWord b) ∧ (wordNames w).Sublist (un rule t c).leaves ∧ Good g := by
        intro layer hL h
        obtain ⟨⟨w', g'⟩, hp, h⟩ := Functor.bind_ok_iff.1 h
        obtain ⟨a1, a2, a3, a4, a5⟩ := aux_any c w' g' hp
        rw [join1] at h
        obtain ⟨x, hx, e⟩ := Rule.map_ok h
        simp only [Prod.mk.injEq] at e
        obtain ⟨rfl, rfl⟩ := e
        exact ⟨a1, a2, a3, a4, a5.andThen hL hx⟩
      split at h
      · simp only [Bool.false_eq_true, if_false] at h
        obtain ⟨layer, hL, h⟩ := Functor.bind_ok_iff.1 h
        refine key layer ?_ h
        unfold swapLayer at hL
        split at hL
        · obtain ⟨_, _, hL⟩ := Functor.bind_ok_iff.1 hL
          obtain ⟨_, _, hL⟩ := Functor.bind_ok_iff.1 hL
          exact (Good.swap hL).1
        · obtain ⟨_, _, hL⟩ := Functor.bind_ok_iff.1 hL
          obtain ⟨_, _, hL⟩ := Functor.bind_ok_iff.1 hL
          exact (Good.swap hL).1
      · obtain ⟨layer, hL, h⟩ := Functor.bind_ok_iff.1 h
        exact key layer (Rule.C29_wellTyped _ _ _ _ hL) h
  | bin rule t l r, w, g, h => by
      rw [toDiagramAux] at h
      obtain ⟨layer, hL, h⟩ := Functor.bind_ok_iff.1 h
      obtain ⟨⟨wl, gl⟩, hl, h⟩ := Functor.bind_ok_iff.1 h
      obtain ⟨⟨wr, gr⟩, hr, h⟩ := Functor.bind_ok_iff.1 h
      simp only [Bool.false_and, Bool.false_eq_true, if_false, join2] at h
      obtain ⟨x, hx, e⟩ := Rule.map_ok h
      simp only [Prod.mk.injEq] at e
      obtain ⟨rfl, rfl⟩ := e
      obtain ⟨a1, a2, a3, a4, a5⟩ := aux_any l wl gl hl
      obtain ⟨b1, b2, b3, b4, b5⟩ := aux_any r wr gr hr
      refine ⟨a1.tensor b1, by simp [tensor_dom, a2, b2], mem_boxes_tensor a3 b3, ?_,
        (a5.tensor b5).andThen (Rule.C29_wellTyped _ _ _ _ hL) hx⟩
      rw [wordNames_tensor]
      exact a4.append b4

/-- **C32**, any tree whatever (also ill-formed ones), not planar: if a diagram is returned it is well
typed, has no inputs, consists of words followed by wires, and its words are leaves of the tree in
their order. -/
theorem C32_any_tree (t : Tree) (collapseNP : Bool) (d : GDiagram) (h : toDiagram t false collapseNP = .ok d) :
    d.WT ∧ d.dom = [] ∧ (wordNames d).Sublist t.leaves ∧
      ∃ w g, d.boxes = w ++ g ∧ (∀ b ∈ w, IsWord b) ∧ ∀ b ∈ g, WireBox b := by
  have h : ((if collapseNP then collapse t else .ok t) >>= fun t' => resolved t' t'.ty >>= fun res =>
      toDiagramAux false res >>= fun p => andThen p.1 p.2) = .ok d := by
    rw [← h]; unfold toDiagram; cases collapseNP <;> rfl
  obtain ⟨t1, h0, h⟩ := Functor.bind_ok_iff.1 h
  obtain ⟨res, hres, h⟩ := Functor.bind_ok_iff.1 h
  obtain ⟨⟨w, g⟩, hp, h⟩ := Functor.bind_ok_iff.1 h
  obtain ⟨a1, a2, a3, a4, a5⟩ := aux_any res w g hp
  have hl : res.leaves = t.leaves := by
    rw [resolved_leaves _ _ _ hres]
    cases collapseNP with
    | false => simp only [Bool.false_eq_true, if_false, Except.ok.injEq] at h0; rw [h0]
    | true => exact collapse_leaves _ _ (by simpa using h0)
  refine ⟨a1.andThen a5.1 h, ?_, ?_, w.boxes, g.boxes, ?_, a3, a5.2⟩
  · obtain ⟨_, rfl⟩ := andThen_ok_iff.1 h; exact a2
  · rw [wordNames_append h, wordNames_good a5.2, List.append_nil, ← hl]; exact a4
  · obtain ⟨_, rfl⟩ := andThen_ok_iff.1 h; simp [Diagram.boxes]

/-! ## What fails -/

/-- Refuted: `planar=True` with generalised crossed composition can silently lose words.  In
`a b c` with `b` modifying the prefix of `a`, the left subtree's own grammar — and the word inside it —
is ignored by ccg_tree.py:494-505. -/
theorem C32_refuted_planar_generalised :
    ∃ (t : Tree) (d : GDiagram), Proper t ∧ t.spoken = ["a", "b", "c"] ∧ toDiagram t true false = .ok d ∧
      wordNames d = ["a", "c"] := by
  let x := Cat.atom "x"; let y := Cat.atom "y"; let z := Cat.atom "z"; let w := Cat.atom "w"
  let yz := Cat.over y z
  let t := Tree.bin .gbx (.over (.over x z) w)
    (.bin .bx (.over yz w) (.leaf "a" (.over yz w)) (.leaf "b" (.under yz yz)))
    (.leaf "c" (.under x y))
  have hp : Proper t := by
    refine .bin _ _ _ _ (Licensed.gbx x y z [(true, w)]) (by decide) (by simp [Tree.ty, Cat.NoEmpty, x, y]) ?_ ?_
    · refine .bin _ _ _ _ (Licensed.bx yz yz w) (by decide) (by simp [Tree.ty, Cat.NoEmpty, yz, y, z]) ?_ ?_
      · exact .leaf _ _ (by decide)
      · exact .leaf _ _ (by decide)
    · exact .leaf _ _ (by decide)
  have : ∃ d, toDiagram t true false = .ok d ∧ wordNames d = ["a", "c"] := by
    have e : (toDiagram t true false).map wordNames = .ok ["a", "c"] := by decide +kernel
    obtain ⟨d, h1, h2⟩ := Rule.map_ok e
    exact ⟨d, h1, h2.symm⟩
  obtain ⟨d, h1, h2⟩ := this
  exact ⟨t, d, hp, rfl, h1, h2⟩

/-- Refuted: a unary rule that turns `X\Y` into `X/Y` (here `s\np` to `s/np`) cannot be drawn unless
`X` and `Y` have the same type: `_resolved` puts the swapped word at `Y\..X`, the wires of which do not
meet the swap. -/
theorem C32_refuted_unary_swap :
    toDiagram (.un .unary (.over (.atom "s") (.atom "np")) (.leaf "sleeps" (.under (.atom "s") (.atom "np")))) false false
      = .error .valueError := by decide +kernel

/-- Refuted: punctuation that is itself the head of a punctuation rule cannot be drawn. -/
theorem C32_refuted_nested_punctuation :
    toDiagram (.bin .rp Cat.PUNC (.leaf "." Cat.PUNC) (.leaf "." Cat.PUNC)) false false
      = .error .valueError := by decide +kernel

/-- Non-vacuity of `C32_toDiagram`, `C32_planar`, `C32_collapse`: "Bob likes today fish ." with
crossed composition, type raising, a unary rule and punctuation. -/
example : ∃ t : Tree, Proper t ∧ t.NoGenCrossed ∧ t.AllNoEmpty ∧
    t.spoken = ["Bob", "likes", "today", "fish"] ∧ t.leaves = ["Bob", "likes", "today", "fish", "."] ∧
    (toDiagram t false false).isOk = true ∧ (toDiagram t true true).isOk = true := by
  let s := Cat.atom "s"; let np := Cat.atom "np"; let n := Cat.atom "n"
  let vp := Cat.under s np
  let subj := Tree.un .ftr (.over s vp) (.leaf "Bob" np)
  let verb := Tree.bin .bx (.over vp np) (.leaf "likes" (.over vp np)) (.leaf "today" (.under vp vp))
  let obj := Tree.un .unary np (.leaf "fish" n)
  let t := Tree.bin .rp s (.bin .fa s (.bin .fc (.over s np) subj verb) obj) (.leaf "." Cat.PUNC)
  refine ⟨t, ?_, ?_, ?_, rfl, rfl, by decide +kernel, by decide +kernel⟩
  · refine .rp "." _ (.bin _ _ _ _ (.fa _ _) (by decide) (by simp [Tree.ty, obj, Cat.NoEmpty, np])
      (.bin _ _ _ _ (.fc _ _ _) (by decide) (by simp [Tree.ty, verb, vp, Cat.NoEmpty, np, s])
        (.raise _ _ _ (by decide) (.ftr _ _) (.leaf _ _ (by decide)))
        (.bin _ _ _ _ (.bx _ _ _) (by decide) (by simp [Tree.ty, vp, Cat.NoEmpty, np, s])
          (.leaf _ _ (by decide)) (.leaf _ _ (by decide))))
      (.relabel _ _ _ (by decide) ?_))
    rintro (⟨a, b, c, d, h, _⟩ | ⟨a, b, c, d, h, _⟩) <;> simp [np] at h
  · simp [NoGenCrossed, t, subj, verb, obj]
  · simp [AllNoEmpty, t, subj, verb, obj, Cat.NoEmpty, s, np, n, vp, Cat.PUNC]

end Tree
end Lambeq
