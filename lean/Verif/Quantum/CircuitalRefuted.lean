import Verif.Quantum.CircuitalTheorems

/-!
# Conversion to circuital form: examples and failures (C84)
-/

namespace Lambeq
open Diagram
set_option linter.unusedSectionVars false
set_option linter.unusedSimpArgs false

namespace QBox
noncomputable section

/-- A circuit with one input, in which a qubit is initialised in the middle of a controlled gate, one is post-selected and one is measured. -/
def circEx : Diagram QOb QBox := ⟨[.qubit], [.bit],
  [⟨[.qubit], ket false, []⟩, ⟨[], H, [.qubit]⟩, ⟨[], CX, []⟩, ⟨[.qubit], ket true, [.qubit]⟩, ⟨[], nest X [-1], [.qubit]⟩, ⟨[], bra true, [.qubit, .qubit]⟩,
   ⟨[.qubit], discard, []⟩, ⟨[], measure, []⟩]⟩

theorem circEx_gates : (∀ l ∈ circEx.layers.take 7, Prep l.box ∨ TkGate l.box) ∧
    ∀ l ∈ circEx.layers.drop 7, l.box = ket false ∨ l.box = bra false ∨ l.box = discard ∨ l.box = measure := by
  constructor
  · intro l hl
    simp only [circEx, List.take_succ_cons, List.take_zero, List.mem_cons, List.not_mem_nil, or_false] at hl
    rcases hl with rfl | rfl | rfl | rfl | rfl | rfl | rfl
    · exact .inl (.inl ⟨_, rfl⟩)
    · exact .inr (.inr (.inr (.inr ⟨H, [], _, _, _, rfl, .h, .inl (by simp)⟩)))
    · exact .inr (.inr (.inr (.inr ⟨X, [1], _, _, _, rfl, .cx (by decide), .inl (by simp)⟩)))
    · exact .inl (.inl ⟨_, rfl⟩)
    · exact .inr (.inr (.inr (.inr ⟨X, [-1], _, _, _, rfl, .cx (by decide), .inr (by simp)⟩)))
    · exact .inl (.inr (.inl ⟨_, rfl⟩))
    · exact .inl (.inr (.inr rfl))
  · intro l hl
    simp only [circEx, List.drop_succ_cons, List.drop_zero, List.mem_cons, List.not_mem_nil, or_false] at hl
    rw [hl]
    exact .inr (.inr (.inr rfl))

theorem circEx_wt : circEx.WT := ⟨rfl, rfl, rfl, rfl, rfl, rfl, rfl, rfl, rfl⟩

/-- The hypotheses of `C84_to_tk` (and with them those of `C84_to_circuital`) hold for the example. -/
example : ∃ tk F, toTk circEx = .ok tk ∧ eval circEx true = .ok F ∧ (openQubits tk).length = 1 := by
  obtain ⟨tk, F, h1, h2, -, -, -, -, -, h8, -⟩ := C84_to_tk circEx_wt (by simp [circEx]) (as := circEx.layers.take 7) (bs := circEx.layers.drop 7)
    (List.take_append_drop _ _).symm circEx_gates.1 circEx_gates.2 (by simp [isCircuital, circEx])
  exact ⟨tk, F, h1, h2, h8⟩

/-- Circuits with a gate on a single qubit that maps qubits to bits and back are in the range of `C84_to_circuital`. -/
example : ∃ c, toCircuital ⟨[.qubit], [.qubit], [⟨[], measure, []⟩, ⟨[], encode, []⟩]⟩ = .ok c ∧ isCircuital c = true := by
  obtain ⟨c, F, G, h1, h2, -⟩ := C84_to_circuital (d := ⟨[.qubit], [.qubit], [⟨[], measure, []⟩, ⟨[], encode, []⟩]⟩) ⟨rfl, rfl, rfl⟩ (by simp) (by
    intro l hl
    simp only [List.mem_cons, List.not_mem_nil, or_false] at hl
    rcases hl with rfl | rfl
    · exact .inr (.inr (.inr (.inl ⟨.inr (.inl rfl), by simp [dom, sig], by simp [dom, cod, sig]⟩)))
    · exact .inr (.inr (.inr (.inl ⟨.inr (.inr (.inl rfl)), by simp [dom, sig], by simp [dom, cod, sig]⟩)))) (.inl (by simp))
  exact ⟨c, h1, h2⟩

/-- **C84 (refuted for the empty circuit).** -/
theorem C84_empty_refuted : toCircuital (Diagram.id []) = .error .indexError := by
  simp [toCircuital, initAndDiscard, Diagram.id, circLoop, sortPost, assemble]

/-- **C84 (refuted for controls on both sides and for three controls to the right).** A wire that is added between the qubits of such a gate can leave all
distances unchanged: the distances are still those of a gate on three (four) qubits, but the box is put on four (five). -/
theorem C84_controls_refuted : width [1, -1] = 3 ∧ stretchLoop 2 (firstPos 0 [1, -1]) [1, -1] = [1, -1] ∧
    width [-1, -1, -1] = 4 ∧ stretchLoop 1 (firstPos 0 [-1, -1, -1]) [-1, -1, -1] = [-1, -1, -1] := by decide

theorem circLoop_nil (kets gates post : List (Layer QOb QBox)) : circLoop kets gates post [] = (kets, gates, post) := by rw [circLoop]
theorem circLoop_ket {kets gates post rest : List (Layer QOb QBox)} {l : Layer QOb QBox} (h : l.box.isKet = true) :
    circLoop kets gates post (l :: rest) = circLoop (addKet kets l l.left.length) (pull l.left.length gates).1 post rest := by rw [circLoop, if_pos h]
theorem circLoop_end {kets gates post rest : List (Layer QOb QBox)} {l : Layer QOb QBox} (h : l.box.isKet = false) (h' : l.box.isEnd = true) :
    circLoop kets gates post (l :: rest) =
      circLoop kets gates (buildLeftRight (pull l.left.length rest).2 l (pull l.left.length rest).1 :: post) (pull l.left.length rest).1 := by
  rw [circLoop, if_neg (by simp [h]), if_pos h']
theorem circLoop_gate {kets gates post rest : List (Layer QOb QBox)} {l : Layer QOb QBox} (h : l.box.isKet = false) (h' : l.box.isEnd = false) :
    circLoop kets gates post (l :: rest) = circLoop kets (gates ++ [l]) post rest := by rw [circLoop, if_neg (by simp [h]), if_neg (by simp [h'])]

/-- **C84 (refuted for other gates on two qubits).** A box on several qubits that is neither a swap nor a controlled gate is dropped when a qubit is
initialised between its outputs later: here the converted circuit consists of initialisations and discards only. -/
theorem C84_dropped_refuted (U : QBox) (hU : ∃ n a z m s, U = gen n [.qubit, .qubit] [.qubit, .qubit] a z m s) :
    ∃ c, toCircuital ⟨[.qubit, .qubit], [.qubit, .qubit, .qubit], [⟨[], U, []⟩, ⟨[.qubit], ket false, [.qubit]⟩]⟩ = .ok c ∧
      ∀ l ∈ c.layers, l.box = ket false ∨ l.box = discard := by
  obtain ⟨n, a, z, m, s, rfl⟩ := hU
  obtain ⟨e, he1, he2⟩ : ∃ e, initAndDiscard (⟨[.qubit, .qubit], [.qubit, .qubit, .qubit], [⟨[], gen n [.qubit, .qubit] [.qubit, .qubit] a z m s, []⟩, ⟨[.qubit], ket false, [.qubit]⟩]⟩) = .ok e ∧
      e.layers = [⟨[], ket false, []⟩, ⟨[.qubit], ket false, []⟩, ⟨[], gen n [.qubit, .qubit] [.qubit, .qubit] a z m s, []⟩, ⟨[.qubit], ket false, [.qubit]⟩,
        ⟨[], discard, [.qubit, .qubit]⟩, ⟨[], discard, [.qubit]⟩, ⟨[], discard, []⟩] := ⟨_, rfl, rfl⟩
  refine ⟨⟨[], [], [⟨[], ket false, []⟩, ⟨[.qubit], ket false, []⟩, ⟨[.qubit, .qubit], ket false, []⟩,
    ⟨[.qubit, .qubit], discard, []⟩, ⟨[.qubit], discard, []⟩, ⟨[], discard, []⟩]⟩, ?_, ?_⟩
  · simp only [toCircuital, he1, he2]
    have h : circLoop [] [] [] (List.flatMap ketbraLayer [⟨[], ket false, []⟩, ⟨[QOb.qubit], ket false, []⟩, ⟨[], gen n [.qubit, .qubit] [.qubit, .qubit] a z m s, []⟩,
        ⟨[.qubit], ket false, [.qubit]⟩, ⟨[], discard, [.qubit, .qubit]⟩, ⟨[], discard, [.qubit]⟩, ⟨[], discard, []⟩]) =
        ([⟨[], ket false, []⟩, ⟨[.qubit], ket false, []⟩, ⟨[.qubit, .qubit], ket false, []⟩], [],
          [⟨[.qubit, .qubit], discard, []⟩, ⟨[.qubit], discard, []⟩, ⟨[], discard, []⟩]) := by
      refine (circLoop_ket rfl).trans ((circLoop_ket rfl).trans ((circLoop_gate rfl rfl).trans ((circLoop_ket rfl).trans ?_)))
      refine (circLoop_end rfl rfl).trans ((circLoop_end rfl rfl).trans ((circLoop_end rfl rfl).trans ?_))
      refine (circLoop_nil _ _ _).trans ?_
      rfl
    rw [h]
    rfl
  · simp

/-- **C84 (refuted for swaps with bits to their left).** If a qubit is initialised between the outputs of such a swap the conversion fails. -/
theorem C84_swap_refuted : ∃ d : Diagram QOb QBox, d.WT ∧ d.dom = [] ∧
    d.layers.map Layer.box = [ket false, measure, ket false, ket false, swap .qubit .qubit, ket false] ∧ toCircuital d = .error .valueError := by
  refine ⟨⟨[], [.bit, .qubit, .qubit, .qubit], [⟨[], ket false, []⟩, ⟨[], measure, []⟩, ⟨[.bit], ket false, []⟩, ⟨[.bit, .qubit], ket false, []⟩, ⟨[.bit], swap .qubit .qubit, []⟩,
    ⟨[.bit, .qubit], ket false, [.qubit]⟩]⟩, ⟨rfl, rfl, rfl, rfl, rfl, rfl, rfl⟩, rfl, rfl, ?_⟩
  generalize hd : (⟨[], [.bit, .qubit, .qubit, .qubit], [⟨[], ket false, []⟩, ⟨[], measure, []⟩, ⟨[.bit], ket false, []⟩, ⟨[.bit, .qubit], ket false, []⟩, ⟨[.bit], swap .qubit .qubit, []⟩,
    ⟨[.bit, .qubit], ket false, [.qubit]⟩]⟩ : Diagram QOb QBox) = d
  obtain ⟨e, he1, he2⟩ : ∃ e, initAndDiscard d = .ok e ∧
      e.layers = [⟨[], ket false, []⟩, ⟨[], measure, []⟩, ⟨[.bit], ket false, []⟩, ⟨[.bit, .qubit], ket false, []⟩, ⟨[.bit], swap .qubit .qubit, []⟩,
    ⟨[.bit, .qubit], ket false, [.qubit]⟩, ⟨[.bit], discard, [.qubit, .qubit]⟩, ⟨[.bit], discard, [.qubit]⟩, ⟨[.bit], discard, []⟩] := by subst hd; exact ⟨_, rfl, rfl⟩
  simp only [toCircuital, he1, he2]
  have h : circLoop [] [] [] (List.flatMap ketbraLayer [⟨[], ket false, []⟩, ⟨[], measure, []⟩, ⟨[.bit], ket false, []⟩, ⟨[.bit, .qubit], ket false, []⟩, ⟨[.bit], swap .qubit .qubit, []⟩,
      ⟨[.bit, .qubit], ket false, [.qubit]⟩, ⟨[.bit], discard, [.qubit, .qubit]⟩, ⟨[.bit], discard, [.qubit]⟩, ⟨[.bit], discard, []⟩]) =
      ([⟨[], ket false, []⟩, ⟨[.qubit], ket false, []⟩, ⟨[.qubit, .qubit], ket false, []⟩, ⟨[.qubit, .qubit, .qubit], ket false, []⟩],
       [⟨[], measure, [.qubit, .qubit, .qubit]⟩, ⟨[.bit], swap .qubit .qubit, [.qubit]⟩, ⟨[.qubit, .bit], swap .qubit .qubit, []⟩, ⟨[.bit], swap .qubit .qubit, [.qubit]⟩],
       [⟨[.bit, .qubit, .qubit], discard, []⟩, ⟨[.bit, .qubit], discard, []⟩, ⟨[.bit], discard, []⟩]) := by
    refine (circLoop_ket rfl).trans ((circLoop_gate rfl rfl).trans ((circLoop_ket rfl).trans ((circLoop_ket rfl).trans ((circLoop_gate rfl rfl).trans ((circLoop_ket rfl).trans ?_)))))
    refine (circLoop_end rfl rfl).trans ((circLoop_end rfl rfl).trans ((circLoop_end rfl rfl).trans ?_))
    refine (circLoop_nil _ _ _).trans ?_
    rfl
  rw [h]
  rfl

end
end QBox
end Lambeq
