import Verif.Convert.DiscopyQuantumProps

namespace Lambeq
namespace Discopy
open Diagram
set_option linter.unusedSimpArgs false
set_option linter.unusedSectionVars false
noncomputable section

/-- The same type of DisCoPy. -/
def SameQTy (t : List QOb) (t' : List DQOb) : Prop := List.Forall₂ (fun o o' => (o = .qubit ∧ o' = .qubit) ∨ (o = .bit ∧ o' = .bit)) t t'

theorem same_qty (t : List QOb) : SameQTy t (qtyL2D t) := by
  rw [SameQTy, qtyL2D, List.forall₂_map_right_iff, List.forall₂_same]
  intro o _
  cases o <;> simp

/-- C107: a circuit of convertible boxes becomes the DisCoPy circuit with the same types, the same wires and the same boxes; it comes back as the same circuit, except that the flags of plain boxes are
cleared, which `==` does not compare. -/
theorem C107_circuit {d : Diagram QOb QBox} (w : d.WT) (h : ∀ l ∈ d.layers, Std l.box) : ∃ D, circuitToDiscopy d = .ok D ∧ D.WT ∧ SameQTy d.dom D.dom ∧ SameQTy d.cod D.cod ∧
    List.Forall₂ (fun (l : Layer QOb QBox) (l' : Layer DQOb DQBox) => SameQTy l.left l'.left ∧ SameQBox l.box l'.box ∧ SameQTy l.right l'.right) d.layers D.layers ∧
    circuitFromDiscopy D = .ok ⟨d.dom, d.cod, d.layers.map (fun l => ⟨l.left, clearFlags l.box, l.right⟩)⟩ := by
  have im := fun l hl => qimage_img (h l hl)
  have h1 : circuitToDiscopy d = _ := convLayers_eq qtyL2D_append qimage d.layers
    (fun l hl => ⟨by rw [(im l hl).l2d]; rfl, (im l hl).sig.1, (im l hl).sig.2⟩) w (id (qtyL2D d.dom)) rfl
  have wt := chain_map (ty := qtyL2D) qtyL2D_append qimage d.layers (fun l hl => (im l hl).sig) w
  refine ⟨_, h1, wt, same_qty _, same_qty _, ?_, ?_⟩
  · show List.Forall₂ _ d.layers (d.layers.map _)
    rw [List.forall₂_map_right_iff, List.forall₂_same]
    intro l hl
    exact ⟨same_qty _, im l hl, same_qty _⟩
  · have back : ∀ (ls : List (Layer QOb QBox)) (a c : List QOb) (E : Diagram QOb QBox), (∀ l ∈ ls, l ∈ d.layers) → Chain a ls c → E.cod = a →
        convLayers qtyD2L (fun b => qAsDiagram (qboxD2L b)) E (ls.map (fun l => (⟨qtyL2D l.left, qimage l.box, qtyL2D l.right⟩ : Layer DQOb DQBox))) =
          .ok ⟨E.dom, c, E.layers ++ ls.map (fun l => ⟨l.left, clearFlags l.box, l.right⟩)⟩ := by
      intro ls
      induction ls with
      | nil => intro a c E _ hc he; obtain rfl : a = c := hc; simp [convLayers, ← he]
      | cons l ls ih =>
        intro a c E hm hc he
        rw [List.map_cons, convLayers]
        simp only [(im l (hm l (by simp))).d2l, qAsDiagram, qty_back]
        have e1 : BoxSig.dom (clearFlags l.box) = l.box.dom := congrArg Prod.fst (clearFlags_sig l.box)
        have e2 : BoxSig.cod (clearFlags l.box) = l.box.cod := congrArg Prod.snd (clearFlags_sig l.box)
        have hT : tensor (tensor (id l.left) (ofBox (clearFlags l.box))) (id l.right) = (⟨l.dom, l.cod, [⟨l.left, clearFlags l.box, l.right⟩]⟩ : Diagram QOb QBox) := by
          simp only [tensor_eq, Diagram.id, ofBox, e1, e2]
          simp [Layer.dom, Layer.cod, Layer.extend]
          exact ⟨rfl, rfl⟩
        rw [hT, andThen_eq_ok (by rw [he, ← hc.1])]
        have := ih l.cod c ⟨E.dom, l.cod, E.layers ++ [⟨l.left, clearFlags l.box, l.right⟩]⟩ (fun x hx => hm x (List.mem_cons_of_mem _ hx)) hc.2 rfl
        rw [List.append_assoc] at this
        exact this
    have := back d.layers d.dom d.cod (id d.dom) (fun _ h => h) w rfl
    rw [circuitFromDiscopy]
    simp only [Diagram.id, qty_back, List.nil_append] at this ⊢
    exact this

theorem clear_id {b : QBox} (h : Std b) (hy : b ≠ .Y) (hc : ∀ u d, b ≠ .controlled u d) : clearFlags b = b := by
  cases h with
  | gate g => cases g <;> first | rfl | exact absurd rfl hy
  | turned g z h1 h2 => rcases h1 with rfl | rfl | rfl <;> rfl
  | dag g z h1 h2 => rfl
  | controlled _ _ => exact absurd rfl (hc _ _)
  | _ => rfl

theorem clear_layers {ls : List (Layer QOb QBox)} (h : ∀ l ∈ ls, clearFlags l.box = l.box) : ls.map (fun l => (⟨l.left, clearFlags l.box, l.right⟩ : Layer QOb QBox)) = ls := by
  conv_rhs => rw [← List.map_id ls]
  exact List.map_congr_left (fun l hl => by rw [h l hl]; rfl)

/-- A box without a Y gate. -/
def NoY : QBox → Prop
  | .controlled u _ => NoY u
  | b => b ≠ .Y

theorem clear_noY {b : QBox} (h : Std b) (hy : NoY b) : clearFlags b = b := by
  induction h with
  | controlled _ _ ih => rw [clearFlags, ih hy]
  | gate g => exact clear_id (.gate g) (by cases g <;> exact hy) (by cases g <;> rintro _ _ ⟨⟩)
  | turned g z h1 h2 => rcases h1 with rfl | rfl | rfl <;> rfl
  | _ => rfl

/-- C107: without Y gates a circuit comes back unchanged. -/
theorem C107_circuit_roundtrip {d : Diagram QOb QBox} (w : d.WT) (h : ∀ l ∈ d.layers, Std l.box ∧ NoY l.box) : ∃ D, circuitToDiscopy d = .ok D ∧ circuitFromDiscopy D = .ok d := by
  obtain ⟨D, h1, _, _, _, _, h2⟩ := C107_circuit w (fun l hl => (h l hl).1)
  refine ⟨D, h1, ?_⟩
  rw [h2, clear_layers (fun l hl => clear_noY (h l hl).1 (h l hl).2)]

/-! ## What cannot be converted, and what is lost -/

/-- C107 refuted: the Y gate comes back without its flag `self_adjoint`, so its dagger is no longer itself. -/
theorem C107_refuted_Y : ∃ D b, circuitToDiscopy (ofBox .Y) = .ok D ∧ circuitFromDiscopy D = .ok (ofBox b) ∧ QBox.Y.dagger = .Y ∧ b.dagger = .daggered b := by
  obtain ⟨D, h1, _, _, _, _, h2⟩ := C107_circuit (d := ofBox QBox.Y) (WT.ofBox _) (by intro l hl; rw [List.mem_singleton.1 hl]; exact .gate .Y)
  exact ⟨D, clearFlags .Y, h1, h2, rfl, rfl⟩

theorem lookup_none {b : QBox} (h1 : b ≠ .swap .qubit .qubit) (h2 : key b = none) : lookupL2D b = none := by
  rw [lookupL2D, if_neg h1, List.find?_eq_none.2]
  · rfl
  · intro g _
    obtain ⟨d, c, a, e⟩ := key_name g
    simp only [decide_eq_true_eq, e, h2]
    rintro ⟨⟩

/-- C107 refuted: the mixed state, which is the dagger of discarding, swaps with a bit, and bits cannot be converted. -/
theorem C107_refuted_boxes : circuitToDiscopy (daggerWith QBox.dagger (ofBox .discard)) = .error .notImplementedError ∧
    (∀ l r, (l = .bit ∨ r = .bit) → circuitToDiscopy (ofBox (.swap l r)) = .error .notImplementedError) ∧
    ∀ b, circuitToDiscopy (ofBox (.bit b)) = .error .typeError := by
  refine ⟨?_, ?_, ?_⟩
  · have : qboxL2D .mixedState = .error .notImplementedError := by
      simp only [qboxL2D, QBox.rotate]
      rw [lookup_none (by rintro ⟨⟩) rfl]
    show convLayers qtyL2D _ _ [⟨[], QBox.mixedState, []⟩] = _
    simp only [convLayers, this, asDiagram]
  · intro l r h
    have : qboxL2D (.swap l r) = .error .notImplementedError := by
      have hr : (QBox.swap l r).rotate (-qz (.swap l r)) = .ok (.swap l r) := rfl
      rw [qboxL2D, hr]
      simp only [lookup_none (b := .swap l r) (by rintro ⟨⟩; rcases h with h | h <;> cases h) rfl]
      all_goals (intros; rename_i e; cases e)
    show convLayers qtyL2D _ _ [⟨[], QBox.swap l r, []⟩] = _
    simp only [convLayers, this, asDiagram]
  · intro b
    show convLayers qtyL2D _ _ [⟨[], QBox.bit b, []⟩] = _
    simp only [convLayers, qboxL2D, QBox.rotate, asDiagram]

/-! ## Examples -/

private def exQ : Diagram QOb QBox :=
  ⟨[], [.bit, .qubit], [⟨[], .ket false, []⟩, ⟨[.qubit], .ket true, []⟩, ⟨[], .H, [.qubit]⟩, ⟨[], .controlled .X 1, []⟩, ⟨[.qubit], .daggered .S, []⟩, ⟨[.qubit], turned .T 1, []⟩,
    ⟨[], .controlled (.rot .x (1 / 3)) (-1), []⟩, ⟨[], .swap .qubit .qubit, []⟩, ⟨[.qubit, .qubit], .scalar 2, []⟩, ⟨[], .measure, [.qubit]⟩]⟩
example : exQ.WT := ⟨rfl, rfl, rfl, rfl, rfl, rfl, rfl, rfl, rfl, rfl, rfl⟩
example : ∀ l ∈ exQ.layers, Std l.box ∧ NoY l.box := by
  intro l hl
  simp only [exQ, List.mem_cons, List.not_mem_nil, or_false] at hl
  rcases hl with rfl | rfl | rfl | rfl | rfl | rfl | rfl | rfl | rfl | rfl
  · exact ⟨.ket _, by rintro ⟨⟩⟩
  · exact ⟨.ket _, by rintro ⟨⟩⟩
  · exact ⟨.gate .H, by rintro ⟨⟩⟩
  · exact ⟨.controlled (.gate .X) (by decide), by rintro ⟨⟩⟩
  · exact ⟨.dag .S 0 (.inl rfl) (.inl rfl), by rintro ⟨⟩⟩
  · exact ⟨.turned .T 1 (by simp) (.inr rfl), by intro e; simp [turned, QBox.Y] at e⟩
  · exact ⟨.controlled (.rot _ _) (by decide), by rintro ⟨⟩⟩
  · exact ⟨.swap, by rintro ⟨⟩⟩
  · exact ⟨.scalar _, by rintro ⟨⟩⟩
  · exact ⟨.measure, by rintro ⟨⟩⟩

end
end Discopy
end Lambeq
