import Verif.Text.DiagramTreeRound
import Verif.Text.DiagramTreeTheorems

/-!
# `diagram2tree`: concrete diagrams (C102)
-/

namespace Lambeq
namespace DTree
open Diagram GDiagram PTree
set_option linter.unusedSimpArgs false

abbrev nn : Ob := ⟨"n", 0⟩
abbrev nr : Ob := ⟨"n", 1⟩
abbrev nl : Ob := ⟨"n", -1⟩
abbrev ss : Ob := ⟨"s", 0⟩

/-- John likes Mary -/
def exLikes : GDiagram := ⟨[], [ss], [⟨[], .word "John" [nn] 0, []⟩, ⟨[nn], .word "likes" [nr, ss, nl] 0, []⟩, ⟨[nn, nr, ss, nl], .word "Mary" [nn] 0, []⟩,
  ⟨[], .cup nn nr false, [ss, nl, nn]⟩, ⟨[ss], .cup nl nn false, []⟩]⟩

/-- The hypotheses of C102_trace, C102_edges and C102_errors hold, and there is a tree. -/
example : exLikes.WT ∧ isPregroup exLikes = true ∧ (∃ l ∈ exLikes.layers, isWord l.box = false) ∧
    ∃ t, diagram2tree exLikes = .ok t ∧ keys t = [("likes", 1), ("John", 0), ("Mary", 2)] ∧ t.typ = [ss] := by
  refine ⟨by decide +kernel, by decide +kernel, ⟨_, List.getLast_mem (l := exLikes.layers) (by simp [exLikes]), by decide +kernel⟩, _, rfl, by decide +kernel, by decide +kernel⟩

/-- The hypotheses of C102_round_trip hold for a tree of four nodes and five tokens. -/
example : exTree.Projective ∧ (∀ s ∈ exTree.subs, ["John", "likes", "Mary", "well", "today"][s.ind]? = some s.word) ∧ (∀ s ∈ exTree.subs, s.typ ≠ auxTy) ∧ (∀ s ∈ exTree.subs, s.typ ≠ []) ∧ exTree.children ≠ [] := by
  refine ⟨?_, ?_, ?_, ?_, ?_⟩
  · unfold exTree
    rw [projective_node]
    simp [OneSide, Apart, Projective, inds, subs, subss, ind, children]
  · simp [exTree, subs, subss, ind, word]
  · simp [exTree, subs, subss, typ, auxTy]
  · simp [exTree, subs, subss, typ]
  · simp [exTree, children]

/-- **C102, refuted for empty types.** A projective tree with a child of empty type: `tree2diagram` makes a diagram, and `diagram2tree` returns a tree without that child. -/
theorem C102_refuted_empty_type : ∃ (root : PTree) (tokens : List String) (d : GDiagram) (t : PTree), root.Projective ∧ (∀ s ∈ root.subs, tokens[s.ind]? = some s.word) ∧ (∀ s ∈ root.subs, s.typ ≠ auxTy) ∧
    tree2diagram root tokens = .ok d ∧ diagram2tree d = .ok t ∧ keys root = [("runs", 1), ("John", 0), ("fast", 2)] ∧ keys t = [("runs", 1), ("John", 0)] := by
  refine ⟨.node "runs" 1 [ss] [.node "John" 0 [nn] [], .node "fast" 2 [] []], ["John", "runs", "fast"], _, _, ?_, by decide +kernel, by decide +kernel, rfl, rfl, by decide +kernel, by decide +kernel⟩
  rw [projective_node]
  simp [OneSide, Apart, Projective, inds, subs, subss, ind, children]

/-- A cycle: the word "b" has a cup with "a" and with "c", and "a" has a cup with "c", the word with the output. -/
def exCycle : GDiagram := ⟨[], [ss], [⟨[], .word "a" [nn, nn] 0, []⟩, ⟨[nn, nn], .word "b" [nr, nn] 0, []⟩, ⟨[nn, nn, nr, nn], .word "c" [nr, nr, ss] 0, []⟩,
  ⟨[nn], .cup nn nr false, [nn, nr, nr, ss]⟩, ⟨[nn], .cup nn nr false, [nr, ss]⟩, ⟨[], .cup nn nr false, [ss]⟩]⟩

/-- **C102, refuted for cycles.** There is a well-typed pregroup diagram of three words for which the tree of `diagram2tree` has a word twice, so that it is not the case that every word is one node. -/
theorem C102_refuted_cycle : ∃ (d : GDiagram) (t : PTree), d.WT ∧ isPregroup d = true ∧ diagram2tree d = .ok t ∧ ¬ (keys t).Nodup := by
  refine ⟨exCycle, _, by decide +kernel, by decide +kernel, rfl, by decide +kernel⟩

/-- **C102, refuted for words that are not connected.** A well-typed pregroup diagram of three words with a cup between the last two, neither of which is in the tree. -/
theorem C102_refuted_unreached : ∃ (d : GDiagram) (t : PTree), d.WT ∧ isPregroup d = true ∧ diagram2tree d = .ok t ∧ d.boxes.length = 4 ∧ keys t = [("a", 0)] := by
  refine ⟨⟨[], [ss], [⟨[], .word "a" [ss] 0, []⟩, ⟨[ss], .word "b" [nn] 0, []⟩, ⟨[ss, nn], .word "c" [nr] 0, []⟩, ⟨[ss], .cup nn nr false, []⟩]⟩, _,
    by decide +kernel, by decide +kernel, rfl, by decide +kernel, by decide +kernel⟩

/-- Two outputs at different words: `ValueError`. -/
example : diagram2tree ⟨[], [ss, nn], [⟨[], .word "a" [ss, nn] 0, []⟩, ⟨[ss, nn], .word "b" [nr, nn] 0, []⟩, ⟨[ss], .cup nn nr false, [nn]⟩]⟩ = .error .valueError := by rfl

end DTree
end Lambeq
