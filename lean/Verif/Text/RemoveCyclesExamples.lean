import Verif.Text.RemoveCyclesTheorems
import Verif.Text.DiagramTreeExamples
import Verif.Text.TreeNodes

/-!
# Breaking cycles: concrete diagrams and trees (C103)
-/

namespace Lambeq
namespace DTree
open PTree GDiagram Diagram
set_option linter.unusedSimpArgs false

theorem ok_of_map {α β : Type} {r : Except PyErr α} {f : α → β} {b : β} (h : r.toOption.map f = some b) : ∃ a, r = .ok a ∧ f a = b := by
  cases r with
  | error e => simp [Except.toOption] at h
  | ok a => exact ⟨a, rfl, by simpa [Except.toOption] using h⟩

/-- The hypotheses of C103_break_cycles hold for the diagram with a cycle; the tree before has a word twice, the tree after has every word once. -/
example : exCycle.WT ∧ isPregroup exCycle = true ∧ exCycle.cod ≠ [] ∧ ∃ t t', diagram2tree exCycle = .ok t ∧ (∀ i < t.ind, i ∈ t.inds) ∧ t.inds.count t.ind = 1 ∧ t.inds = [2, 0, 1, 1] ∧
    diagram2treeBreak exCycle = .ok t' ∧ t'.inds = [2, 0, 1] := by
  obtain ⟨t, h, e⟩ := ok_of_map (r := diagram2tree exCycle) (f := fun t => (t.ind, t.inds)) (b := (2, [2, 0, 1, 1])) (by decide +kernel)
  obtain ⟨t', h', e'⟩ := ok_of_map (r := diagram2treeBreak exCycle) (f := fun t => t.inds) (b := [2, 0, 1]) (by decide +kernel)
  have e1 : t.ind = 2 := congrArg Prod.fst e
  have e2 : t.inds = [2, 0, 1, 1] := congrArg Prod.snd e
  exact ⟨by decide +kernel, by decide +kernel, by decide +kernel, t, t', h, by rw [e1, e2]; decide, by rw [e1, e2]; decide, e2, h', e'⟩

/-- The hypotheses of C103_no_cycles hold for a tree of three words. -/
example : (PTree.node "likes" 1 [ss] [.node "John" 0 [nn] [], .node "Mary" 2 [nn] []]).inds.Nodup ∧ ∀ i < 1, i ∈ (PTree.node "likes" 1 [ss] [.node "John" 0 [nn] [], .node "Mary" 2 [nn] []]).inds := by
  constructor <;> decide +kernel

/-- **C103, refuted when a word before the root is not in the tree.** A well-typed pregroup diagram of the words "well", of the empty type, "John" and "runs": `diagram2tree` returns a tree in which every word is once,
and with `break_cycles` it raises `IndexError`, since the list of nodes has no entries for words that are not in the tree. -/
theorem C103_refuted_gap : ∃ (d : GDiagram) (t : PTree), d.WT ∧ isPregroup d = true ∧ diagram2tree d = .ok t ∧ keys t = [("runs", 2), ("John", 1)] ∧ diagram2treeBreak d = .error .indexError := by
  refine ⟨⟨[], [ss], [⟨[], .word "well" [] 0, []⟩, ⟨[], .word "John" [nn] 0, []⟩, ⟨[nn], .word "runs" [nr, ss] 0, []⟩, ⟨[], .cup nn nr false, [ss]⟩]⟩, _,
    by decide +kernel, by decide +kernel, rfl, by decide +kernel, rfl⟩

/-- **C103, refuted for a cup of the root with itself.** `break_cycles`, which is to remove copies of a node below itself, raises `AssertionError`. -/
theorem C103_refuted_root : ∃ (d : GDiagram) (t : PTree), d.WT ∧ isPregroup d = true ∧ diagram2tree d = .ok t ∧ keys t = [("a", 0), ("a", 0)] ∧ diagram2treeBreak d = .error .assertionError := by
  refine ⟨⟨[], [ss], [⟨[], .word "a" [nn, nr, ss] 0, []⟩, ⟨[], .cup nn nr false, [ss]⟩]⟩, _, by decide +kernel, by decide +kernel, rfl, by decide +kernel, rfl⟩

/-- **C103, refuted for the trees of `generate_tree`.** There are four tokens, where the third has two parents, the first and the second, and is the parent of the fourth. `generate_tree` makes the first copy of the third
token, under the first token, the parent of the fourth. `remove_cycles` retains the deepest copy, which has no children: the fourth word is lost. -/
theorem C103_refuted_generate : ∃ (t t' : PTree), generateTree ["a", "b", "c", "d"] [[['s']], [['n']], [['n'], ['n']], [['n']]] [[-1], [0], [0, 1], [2]] = .ok [t] ∧ removeCycles t = .ok t' ∧
    t.inds = [0, 1, 2, 2, 3] ∧ t'.inds = [0, 1, 2] := by
  refine ⟨_, _, rfl, rfl, by decide +kernel, by decide +kernel⟩

end DTree
end Lambeq
