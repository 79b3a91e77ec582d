import Verif.Bobcat.ParserProps
import Mathlib.Algebra.BigOperators.Group.Finset.Basic
import Mathlib.Algebra.Order.BigOperators.Group.Finset

/-!
# C61: the limit on the number of trees
-/

namespace Lambeq
namespace Bobcat
set_option linter.unusedSimpArgs false
set_option linter.unusedVariables false
set_option linter.unusedSectionVars false

variable {κ α S : Type} [DecidableEq κ] [DecidableEq α] [LinearOrder S] [AddCommMonoid S] [IsOrderedAddMonoid S]

/-! ## Specification -/

/-- The number of trees in a cell. -/
def Chart.size (ch : Chart κ α S) (p : Nat × Nat) : Nat :=
  match ch.cells p.1 p.2 with
  | some c => c.trees.length
  | none => 0

/-- The number of trees in the cells of a sentence of `n` words. -/
def Chart.total (ch : Chart κ α S) (n : Nat) : Nat := ∑ p ∈ Finset.range n ×ˢ Finset.range n, ch.size p

/-! ## Proof -/

theorem deleteTree_length {ι : Type} [DecidableEq ι] (l : List (PTree ι κ S)) (old : PTree ι κ S) : (deleteTree l old).length ≤ l.length := by
  unfold deleteTree
  simp only
  split
  · exact (List.eraseIdx_sublist _ _).length_le
  · split
    · exact (List.eraseIdx_sublist _ _).length_le
    · exact le_refl _

theorem addOne_length {ι : Type} [DecidableEq ι] {b : Nat} {c : Cell ι κ S} {t : PTree ι κ S} {a : Int} {r : Cell ι κ S × Int}
    (h : addOne b c t a = .ok r) : (r.1.trees.length : Int) - r.2 ≤ c.trees.length - a := by
  unfold addOne at h
  split at h
  · cases h; exact le_refl _
  · rename_i trees hp
    have hlen : trees.length ≤ c.trees.length := by
      unfold prepare at hp
      split at hp
      · cases hp; exact le_refl _
      · split at hp
        · cases hp; exact deleteTree_length _ _
        · cases hp
    have hins : (trees.insertIdx (find trees t.score) t).length ≤ trees.length + 1 := by
      rw [List.length_insertIdx]; split <;> omega
    unfold applyBeam at h
    simp only at h
    split at h
    · cases h; simp only; omega
    · split at h
      · cases h; simp only; omega
      · rename_i v hv
        obtain ⟨hlt, _⟩ := List.getElem?_eq_some_iff.1 hv
        split at h
        · split at h
          · cases h
          · cases h
            simp only [List.length_take]
            omega
        · cases h; simp only; omega

theorem addLoop_length {ι : Type} [DecidableEq ι] {b : Nat} {l : List (PTree ι κ S)} {c : Cell ι κ S} {a : Int} {r : Cell ι κ S × Int}
    (h : addLoop b l c a = .ok r) : (r.1.trees.length : Int) - r.2 ≤ c.trees.length - a := by
  induction l generalizing c a with
  | nil => cases h; exact le_refl _
  | cons t ts ih =>
    simp only [addLoop] at h
    split at h
    · cases h
    · cases h; exact le_refl _
    · split at h
      · cases h
      · rename_i r' h1
        exact (ih h).trans (addOne_length h1)

theorem add_total {b : Nat} {ch ch' : Chart κ α S} {i j n : Nat} {trees : List (Parse κ α S)} (h : ch.add b i j trees = .ok ch')
    (ht : (ch.total n : Int) ≤ ch.count) (hi : i < n) (hj : j < n) : (ch'.total n : Int) ≤ ch'.count := by
  unfold Chart.add at h
  split at h
  · cases h; exact ht
  · split at h
    · cases h
    · rename_i c k hc
      cases h
      have h1 := addLoop_length hc
      have hmem : (i, j) ∈ Finset.range n ×ˢ Finset.range n := by simp [hi, hj]
      have h0 : ((ch.cells i j).getD Cell.empty).trees.length = ch.size (i, j) := by
        unfold Chart.size
        cases ch.cells i j <;> rfl
      rw [h0] at h1
      unfold Chart.total at ht ⊢
      rw [← Finset.add_sum_erase _ _ hmem] at ht ⊢
      have h2 : ∀ p ∈ (Finset.range n ×ˢ Finset.range n).erase (i, j),
          Chart.size ⟨fun i' j' => if i' = i ∧ j' = j then some c else ch.cells i' j', ch.count + k⟩ p = ch.size p := by
        intro p hp
        have hne := Finset.ne_of_mem_erase hp
        have : ¬ (p.1 = i ∧ p.2 = j) := fun e => hne (Prod.ext e.1 e.2)
        simp only [Chart.size, if_neg this]
      rw [Finset.sum_congr rfl h2]
      have h3 : Chart.size ⟨fun i' j' => if i' = i ∧ j' = j then some c else ch.cells i' j', ch.count + k⟩ (i, j) = c.trees.length := by
        simp [Chart.size]
      rw [h3]
      generalize hT : (∑ x ∈ (Finset.range n ×ˢ Finset.range n).erase (i, j), ch.size x) = T at ht ⊢
      have hT' : ((Finset.range n ×ˢ Finset.range n).erase (i, j)).sum ch.size = T := hT
      simp only [Nat.cast_add] at ht h1 ⊢
      omega

section
variable {cfg : Config κ α S} {s : Sent κ S} {prune : Bool}

theorem overRight_total {scores : List (Nat × S)} {i j : Nat} (hi : i < s.length) (hj : j < s.length) {left : Parse κ α S} {rs : List (Parse κ α S)}
    {ch ch' : Chart κ α S} (h : overRight prune cfg s scores i j left rs ch = .ok ch') (ht : (ch.total s.length : Int) ≤ ch.count) :
    (ch'.total s.length : Int) ≤ ch'.count := by
  induction rs generalizing ch with
  | nil => cases h; exact ht
  | cons r rs ih =>
    simp only [overRight] at h
    split at h
    · cases h; exact ht
    · split at h
      · cases h
      · rename_i ch1 h1
        exact ih h (add_total h1 ht hi hj)

theorem overLeft_total {scores : List (Nat × S)} {i j : Nat} (hi : i < s.length) (hj : j < s.length) {ls rs : List (Parse κ α S)}
    {ch ch' : Chart κ α S} (h : overLeft prune cfg s scores i j rs ls ch = .ok ch') (ht : (ch.total s.length : Int) ≤ ch.count) :
    (ch'.total s.length : Int) ≤ ch'.count := by
  induction ls generalizing ch with
  | nil => cases h; exact ht
  | cons r rs ih =>
    simp only [overLeft] at h
    split at h
    · cases h
    · rename_i ch1 h1
      exact ih h (overRight_total hi hj h1 ht)

theorem overSplits_total {scores : List (Nat × S)} {i j : Nat} (hi : i < s.length) (hj : j < s.length) {n k : Nat}
    {ch ch' : Chart κ α S} (h : overSplits prune cfg s scores i j n k ch = .ok ch') (ht : (ch.total s.length : Int) ≤ ch.count) :
    (ch'.total s.length : Int) ≤ ch'.count := by
  induction n generalizing k ch with
  | zero => cases h; exact ht
  | succ n ih =>
    simp only [overSplits] at h
    split at h
    · cases h
    · rename_i ch1 h1
      refine ih h ?_
      unfold atSplit at h1
      split at h1
      · exact overLeft_total hi hj h1 ht
      · cases h1; exact ht

theorem overEnds_total {len n j : Nat} (hj : j + n ≤ s.length)
    {ch ch' : Chart κ α S} (h : overEnds prune cfg s len n j ch = .ok ch') (ht : (ch.total s.length : Int) ≤ ch.count) :
    (ch'.total s.length : Int) ≤ ch'.count := by
  induction n generalizing j ch with
  | zero => cases h; exact ht
  | succ n ih =>
    simp only [overEnds] at h
    split at h
    · cases h; exact ht
    · split at h
      · exact ih (by omega) h ht
      · split at h
        · cases h
        · rename_i ch1 h1
          exact ih (by omega) h (overSplits_total (by omega) (by omega) h1 ht)

theorem overLengths_total {n len : Nat} (hn : n = 0 ∨ len + n ≤ s.length)
    {ch ch' : Chart κ α S} (h : overLengths prune cfg s n len ch = .ok ch') (ht : (ch.total s.length : Int) ≤ ch.count) :
    (ch'.total s.length : Int) ≤ ch'.count := by
  induction n generalizing len ch with
  | zero => cases h; exact ht
  | succ n ih =>
    simp only [overLengths] at h
    split at h
    · cases h
    · rename_i ch1 h1
      exact ih (by omega) h (overEnds_total (by omega) h1 ht)

theorem addWords_total {n i : Nat} (hn : i + n ≤ s.length)
    {ch ch' : Chart κ α S} (h : addWords cfg s n i ch = .ok ch') (ht : (ch.total s.length : Int) ≤ ch.count) :
    (ch'.total s.length : Int) ≤ ch'.count := by
  induction n generalizing i ch with
  | zero => cases h; exact ht
  | succ n ih =>
    simp only [addWords] at h
    split at h
    · cases h
    · rename_i ch1 h1
      exact ih (by omega) h (add_total h1 ht (by omega) (by omega))

/-- **C61 (limit).** For every sentence, grammar and limit on the number of trees: the parser never counts fewer trees than there are in the
chart, and when the chart has more trees than the limit at the start of a span, no tree is added for it or for any later span of its length. -/
theorem C61_limit :
    (∀ ch, parseChart prune cfg s = .ok ch → (ch.total s.length : Int) ≤ ch.count) ∧
    (∀ (ch : Chart κ α S) (len n j : Nat), (ch.total s.length : Int) ≤ ch.count → cfg.maxTrees < ch.total s.length → overEnds prune cfg s len n j ch = .ok ch) := by
  refine ⟨?_, ?_⟩
  · intro ch h
    unfold parseChart at h
    split at h
    · cases h
    · rename_i ch1 h1
      refine overLengths_total (by omega) h (addWords_total (by omega) h1 ?_)
      simp [Chart.total, Chart.size]
  · intro ch len n j h1 h2
    cases n with
    | zero => rfl
    | succ n => simp only [overEnds]; rw [if_pos (by omega)]

/-- The chart of the demo sentence holds four trees and counts four. -/
example : (parseChart true demoCfg demoSent).toOption.map (fun ch => ((ch.cells 0 0).elim 0 (fun c => c.trees.length), ch.count)) = some (2, 4) := by
  decide +kernel

end
end Bobcat
end Lambeq
