import Verif.Bobcat.Parser

/-!
# C61: the chart parser
-/

namespace Lambeq
namespace Bobcat
set_option linter.unusedSimpArgs false
set_option linter.unusedVariables false
set_option linter.unusedSectionVars false

variable {κ α S : Type} [DecidableEq κ] [DecidableEq α] [LinearOrder S] [AddCommMonoid S] [IsOrderedAddMonoid S]

/-! ## Specification -/

/-- The words of a tree, from left to right. -/
def Parse.words : Parse κ α S → List Nat
  | .leaf _ _ _ w => [w]
  | .unary _ _ _ l => l.words
  | .binary _ _ _ l r => l.words ++ r.words

/-- The tree follows the rules: every binary node comes from `combine`, every unary node from `type_change` or `type_raise`, every leaf
from a supertag of its word. -/
def Parse.Derived (cfg : Config κ α S) (s : Sent κ S) : Parse κ α S → Prop
  | .leaf c i sc w => ∃ p ∈ s.supertags w, p.1 = c ∧ i = cfg.lexical c ∧ sc = cfg.weigh p.2
  | .unary c i _ l => l.Derived cfg s ∧ ((c, i) ∈ cfg.typeChange l ∨ (c, i) ∈ cfg.typeRaise l)
  | .binary c i _ l r => l.Derived cfg s ∧ r.Derived cfg s ∧ (c, i) ∈ cfg.combine l r

/-- Whether the last rule of the tree is type changing or type raising. -/
def Parse.isUnary : Parse κ α S → Bool
  | .unary .. => true
  | _ => false

/-- What a tree in the cell from `i` to `j` must be: derived, over the words from `i` to `j`; and over the whole sentence, of a root category and not
the result of a unary rule. -/
structure Fits (cfg : Config κ α S) (s : Sent κ S) (i j : Nat) (t : Parse κ α S) : Prop where
  derived : t.Derived cfg s
  words : t.words = List.range' i (j + 1 - i)
  root : i = 0 → j + 1 = s.length → cfg.matchesRoot t.cat = true
  noUnary : i = 0 → j + 1 = s.length → t.isUnary = false

/-- The invariant of the chart. -/
structure Chart.Ok (cfg : Config κ α S) (s : Sent κ S) (ch : Chart κ α S) : Prop where
  cells : ∀ i j c, ch.cells i j = some c → i ≤ j ∧ j < s.length ∧ c.trees ≠ [] ∧
    ∃ offered, Holds cfg.beam c offered ∧ ∀ e ∈ offered, e = e.id.entry ∧ Fits cfg s i j e.id

/-! ## Adding to the chart -/

/-- Trees below the minimal score of a cell leave it as it is. -/
theorem add_below {ι : Type} [DecidableEq ι] {b : Nat} (hb : 0 < b) {c : Cell ι κ S} {offered : List (PTree ι κ S)} (h : Holds b c offered) {m : S}
    (hm : c.minScore = some m) (l : List (PTree ι κ S)) (hl : ∀ t ∈ l, t.score < m) : c.add b l = .ok (c, 0) := by
  unfold Cell.add
  have hp := List.perm_insertionSort (fun t u : PTree ι κ S => u.score ≤ t.score) l
  cases hs : l.insertionSort (fun t u : PTree ι κ S => u.score ≤ t.score) with
  | nil => rfl
  | cons t ts =>
    have ht : t.score < m := hl t (hp.mem_iff.1 (by rw [hs]; simp))
    rw [h.minScore] at hm
    obtain ⟨u, hu, rfl⟩ := Option.map_eq_some_iff.1 hm
    obtain ⟨hlt, _⟩ := List.getElem?_eq_some_iff.1 hu
    have hlen : b ≤ c.trees.length := by omega
    have hlast : c.trees.getLast? = some (c.trees[c.trees.length - 1]'(by omega)) := by
      rw [List.getLast?_eq_getElem?, List.getElem?_eq_getElem]
    have he := C46_beam hb h (b - 1) (c.trees.length - 1) u _ (le_refl _) (by omega) hu (List.getElem?_eq_getElem (by omega))
    have hbb : belowBeam b c t = .ok true := by
      unfold belowBeam
      rw [if_pos hlen, hlast]
      simp only [Except.ok.injEq, decide_eq_true_eq]
      rw [← he]; exact ht
    simp only [addLoop, hbb]

theorem chart_add {cfg : Config κ α S} (hb : 0 < cfg.beam) {s : Sent κ S} {ch : Chart κ α S} (h : ch.Ok cfg s) {i j : Nat} (hij : i ≤ j) (hj : j < s.length)
    (trees : List (Parse κ α S)) (ht : ∀ t ∈ trees, Fits cfg s i j t) :
    ∃ ch', ch.add cfg.beam i j trees = .ok ch' ∧ ch'.Ok cfg s ∧ (∀ i' j', ¬ (i' = i ∧ j' = j) → ch'.cells i' j' = ch.cells i' j') ∧
      ((ch'.cells i j).isSome ↔ (ch.cells i j).isSome ∨ trees ≠ []) := by
  unfold Chart.add
  by_cases hn : trees = []
  · rw [if_pos hn]; exact ⟨ch, rfl, h, fun _ _ _ => rfl, by simp [hn]⟩
  · rw [if_neg hn]
    have hold : ∃ offered, Holds cfg.beam ((ch.cells i j).getD Cell.empty) offered ∧ ∀ e ∈ offered, e = e.id.entry ∧ Fits cfg s i j e.id := by
      cases hc : ch.cells i j with
      | none => exact ⟨[], empty_holds _, by simp⟩
      | some c => exact (h.cells i j c hc).2.2.2
    obtain ⟨offered, hh, hf⟩ := hold
    obtain ⟨⟨c', n⟩, hr, hh'⟩ := C46_add hb _ offered (trees.map Parse.entry) hh
    simp only [hr]
    refine ⟨_, rfl, ⟨?_⟩, ?_, ?_⟩
    · intro i' j' c hc
      simp only at hc
      split at hc
      · rename_i he
        obtain ⟨rfl, rfl⟩ := he
        cases hc
        refine ⟨hij, hj, ?_, _, hh', ?_⟩
        · intro he
          obtain ⟨t, ts, htt⟩ := List.exists_cons_of_ne_nil hn
          have := hh'.covered t.entry (by simp [htt])
          simp [he] at this
          omega
        · intro e he
          rcases List.mem_append.1 he with he | he
          · obtain ⟨t, htm, rfl⟩ := List.mem_map.1 he
            exact ⟨rfl, ht t htm⟩
          · exact hf e he
      · exact h.cells i' j' c hc
    · intro i' j' hne
      simp only [hne, if_false]
    · simp [hn]

/-! ## The trees built -/

theorem range_split {i k j : Nat} (h1 : i < k) (h2 : k ≤ j) : List.range' i (k - i) ++ List.range' k (j + 1 - k) = List.range' i (j + 1 - i) := by
  have := List.range'_append (s := i) (m := k - i) (n := j + 1 - k) (step := 1)
  rw [show i + 1 * (k - i) = k by omega, show k - i + (j + 1 - k) = j + 1 - i by omega] at this
  exact this

/-- The two conditions other than that on the root. -/
def Pre (cfg : Config κ α S) (s : Sent κ S) (i j : Nat) (t : Parse κ α S) : Prop := t.Derived cfg s ∧ t.words = List.range' i (j + 1 - i)

theorem unaries_pre {cfg : Config κ α S} {s : Sent κ S} {i j : Nat} {scores : List (Nat × S)} {rule : Parse κ α S → List (κ × α)}
    (hr : rule = cfg.typeChange ∨ rule = cfg.typeRaise) {trees : List (Parse κ α S)} (h : ∀ t ∈ trees, Pre cfg s i j t) :
    ∀ t ∈ unaries cfg scores rule trees, Pre cfg s i j t := by
  intro t ht
  obtain ⟨u, hu, ht⟩ := List.mem_flatMap.1 ht
  obtain ⟨c, hc, rfl⟩ := List.mem_map.1 ht
  obtain ⟨h1, h2⟩ := h u hu
  refine ⟨⟨h1, ?_⟩, h2⟩
  rcases hr with rfl | rfl
  · exact .inl hc
  · exact .inr hc

theorem withUnaries_pre {cfg : Config κ α S} {s : Sent κ S} {i j : Nat} {scores : List (Nat × S)} {trees : List (Parse κ α S)}
    (h : ∀ t ∈ trees, Pre cfg s i j t) : ∀ t ∈ withUnaries cfg scores trees, Pre cfg s i j t := by
  have h1 : ∀ t ∈ trees ++ unaries cfg scores cfg.typeChange trees, Pre cfg s i j t := by
    intro t ht
    rcases List.mem_append.1 ht with ht | ht
    · exact h t ht
    · exact unaries_pre (.inl rfl) h t ht
  intro t ht
  simp only [withUnaries] at ht
  rcases List.mem_append.1 ht with ht | ht
  · exact h1 t ht
  · exact unaries_pre (.inr rfl) h1 t ht

theorem wordTrees_fits {cfg : Config κ α S} {s : Sent κ S} {i : Nat} : ∀ t ∈ wordTrees cfg s i, Fits cfg s i i t := by
  have h0 : ∀ t ∈ wordLeaves cfg s i, Pre cfg s i i t := by
    intro t ht
    obtain ⟨p, hp, rfl⟩ := List.mem_map.1 ht
    exact ⟨⟨p, hp, rfl, rfl, rfl⟩, by simp [Parse.words]⟩
  have h1 : ∀ t ∈ wordResults cfg s i, Pre cfg s i i t := by
    intro t ht
    unfold wordResults at ht
    split at ht
    · exact h0 t ht
    · split at ht
      · exact withUnaries_pre h0 t ht
      · exact h0 t ht
  intro t ht
  unfold wordTrees at ht
  split at ht
  · rename_i hl
    obtain ⟨h2, h3⟩ := List.mem_filter.1 ht
    obtain ⟨h4, h5⟩ := h1 t h2
    refine ⟨h4, h5, fun _ _ => h3, fun _ _ => ?_⟩
    have h6 : t ∈ wordLeaves cfg s i := by
      unfold wordResults at h2
      split at h2
      · exact h2
      · rw [if_neg (by omega)] at h2; exact h2
    obtain ⟨p, hp, rfl⟩ := List.mem_map.1 h6
    rfl
  · rename_i hl
    obtain ⟨h4, h5⟩ := h1 t ht
    exact ⟨h4, h5, fun h6 h7 => absurd (by omega) hl, fun h6 h7 => absurd (by omega) hl⟩

theorem pairTrees_fits {cfg : Config κ α S} {s : Sent κ S} {scores : List (Nat × S)} {i j k : Nat} (h1 : i < k) (h2 : k ≤ j) (hj : j < s.length)
    {left right : Parse κ α S} (hl : Fits cfg s i (k - 1) left) (hr : Fits cfg s k j right) :
    ∀ t ∈ pairTrees cfg s scores i j left right, Fits cfg s i j t := by
  have h0 : ∀ t ∈ (cfg.combine left right).map (fun c => Parse.binary c.1 c.2 (scoreBinary cfg scores c.1 c.2 left right) left right), Pre cfg s i j t := by
    intro t ht
    obtain ⟨c, hc, rfl⟩ := List.mem_map.1 ht
    refine ⟨⟨hl.derived, hr.derived, hc⟩, ?_⟩
    simp only [Parse.words, hl.words, hr.words]
    rw [show k - 1 + 1 - i = k - i by omega]
    exact range_split h1 h2
  intro t ht
  unfold pairTrees at ht
  simp only at ht
  set base := (cfg.combine left right).map (fun c => Parse.binary c.1 c.2 (scoreBinary cfg scores c.1 c.2 left right) left right) with hbase
  have h3 : ∀ t ∈ (if j - i + 1 < s.length then withUnaries cfg scores base else base), Pre cfg s i j t := by
    intro t ht
    split at ht
    · exact withUnaries_pre h0 t ht
    · exact h0 t ht
  by_cases hroot : j - i = s.length - 1
  · rw [if_pos hroot] at ht
    obtain ⟨h4, h5⟩ := List.mem_filter.1 ht
    obtain ⟨h6, h7⟩ := h3 t h4
    refine ⟨h6, h7, fun _ _ => h5, fun _ _ => ?_⟩
    rw [if_neg (by omega)] at h4
    obtain ⟨c, hc, rfl⟩ := List.mem_map.1 h4
    rfl
  · rw [if_neg hroot] at ht
    obtain ⟨h6, h7⟩ := h3 t ht
    exact ⟨h6, h7, fun h8 h9 => absurd (by omega) hroot, fun h8 h9 => absurd (by omega) hroot⟩

/-! ## Bounds on scores -/

theorem foldl_max_ge (l : List S) (a : S) : a ≤ l.foldl max a ∧ ∀ x ∈ l, x ≤ l.foldl max a := by
  induction l generalizing a with
  | nil => simp
  | cons b l ih =>
    obtain ⟨h1, h2⟩ := ih (max a b)
    refine ⟨(le_max_left a b).trans h1, ?_⟩
    intro x hx
    rcases List.mem_cons.1 hx with rfl | hx
    · exact (le_max_right a x).trans h1
    · exact h2 x hx

theorem spanScore_le (cfg : Config κ α S) (scores : List (Nat × S)) (id : Option Nat) : spanScore cfg scores id ≤ maxSpanScore cfg scores := by
  unfold maxSpanScore
  obtain ⟨h1, h2⟩ := foldl_max_ge (scores.map Prod.snd) (max cfg.missingCat cfg.missingSpan)
  cases id with
  | none => exact (le_max_left _ _).trans h1
  | some id =>
    simp only [spanScore]
    split
    · rename_i sc hs
      apply h2
      unfold dictGet at hs
      obtain ⟨p, hp, rfl⟩ := Option.map_eq_some_iff.1 hs
      exact List.mem_map.2 ⟨p, List.mem_of_find?_eq_some hp, rfl⟩
    · exact (le_max_right _ _).trans h1

/-- The trees built over a pair, by their shape. -/
def Over (left right : Parse κ α S) (t : Parse κ α S) : Prop := (∃ c i sc, t = .binary c i sc left right) ∨ (∃ c i sc c' i' sc', t = .unary c i sc (.binary c' i' sc' left right))

theorem scoreUnary_le (cfg : Config κ α S) (scores : List (Nat × S)) (cat : κ) (left right t : Parse κ α S) (h : Over left right t) :
    scoreUnary cfg scores cat t ≤ left.score + right.score + maxSpanScore cfg scores := by
  unfold scoreUnary
  have : baseScore (unaryBase t).1 = left.score + right.score := by
    rcases h with ⟨c, i, sc, rfl⟩ | ⟨c, i, sc, c', i', sc', rfl⟩ <;> rfl
  rw [this]
  exact add_le_add (le_refl _) (spanScore_le _ _ _)

theorem pairTrees_score {cfg : Config κ α S} {s : Sent κ S} {scores : List (Nat × S)} {i j : Nat} {left right : Parse κ α S} :
    ∀ t ∈ pairTrees cfg s scores i j left right, t.score ≤ left.score + right.score + maxSpanScore cfg scores := by
  have h0 : ∀ t ∈ (cfg.combine left right).map (fun c => Parse.binary c.1 c.2 (scoreBinary cfg scores c.1 c.2 left right) left right),
      t.score ≤ left.score + right.score + maxSpanScore cfg scores ∧ ∃ c i sc, t = .binary c i sc left right := by
    intro t ht
    obtain ⟨c, hc, rfl⟩ := List.mem_map.1 ht
    exact ⟨add_le_add (le_refl _) (spanScore_le _ _ _), _, _, _, rfl⟩
  intro t ht
  unfold pairTrees at ht
  simp only at ht
  set base := (cfg.combine left right).map (fun c => Parse.binary c.1 c.2 (scoreBinary cfg scores c.1 c.2 left right) left right) with hbase
  have h1 : ∀ t ∈ base ++ unaries cfg scores cfg.typeChange base, t.score ≤ left.score + right.score + maxSpanScore cfg scores ∧ Over left right t := by
    intro t ht
    rcases List.mem_append.1 ht with ht | ht
    · exact ⟨(h0 t ht).1, .inl (h0 t ht).2⟩
    · obtain ⟨u, hu, ht⟩ := List.mem_flatMap.1 ht
      obtain ⟨c, hc, rfl⟩ := List.mem_map.1 ht
      obtain ⟨_, c', i', sc', rfl⟩ := h0 u hu
      exact ⟨scoreUnary_le _ _ _ _ _ _ (.inl ⟨_, _, _, rfl⟩), .inr ⟨_, _, _, _, _, _, rfl⟩⟩
  have h2 : ∀ t ∈ withUnaries cfg scores base, t.score ≤ left.score + right.score + maxSpanScore cfg scores := by
    intro t ht
    simp only [withUnaries] at ht
    rcases List.mem_append.1 ht with ht | ht
    · exact (h1 t ht).1
    · obtain ⟨u, hu, ht⟩ := List.mem_flatMap.1 ht
      obtain ⟨c, hc, rfl⟩ := List.mem_map.1 ht
      exact scoreUnary_le _ _ _ _ _ _ (h1 u hu).2
  have h3 : ∀ t ∈ (if j - i + 1 < s.length then withUnaries cfg scores base else base), t.score ≤ left.score + right.score + maxSpanScore cfg scores := by
    intro t ht
    split at ht
    · exact h2 t ht
    · exact (h0 t ht).1
  split at ht
  · exact h3 t (List.mem_filter.1 ht).1
  · exact h3 t ht

/-! ## The loops -/

/-- What every part of the parser does to a chart: no exception, the same with and without pruning, the invariant, and nothing changes
outside some cells. -/
def Good (cfg : Config κ α S) (s : Sent κ S) (other : Nat → Nat → Prop) (ch : Chart κ α S) (f : Bool → Except PyErr (Chart κ α S)) : Prop :=
  ∃ ch', f true = .ok ch' ∧ f false = .ok ch' ∧ ch'.Ok cfg s ∧ ∀ i j, other i j → ch'.cells i j = ch.cells i j

theorem skip_right {cfg : Config κ α S} (hb : 0 < cfg.beam) {s : Sent κ S} {scores : List (Nat × S)} {i j : Nat} {left : Parse κ α S}
    {rights : List (Parse κ α S)} {ch : Chart κ α S} (hch : ch.Ok cfg s) {m : S} (hm : ch.minScore i j = some m)
    (h : ∀ r ∈ rights, left.score + r.score + maxSpanScore cfg scores < m) : overRight false cfg s scores i j left rights ch = .ok ch := by
  induction rights with
  | nil => rfl
  | cons r rs ih =>
    have hadd : ch.add cfg.beam i j (pairTrees cfg s scores i j left r) = .ok ch := by
      unfold Chart.add
      split
      · rfl
      · unfold Chart.minScore at hm
        split at hm
        · rename_i c hc
          obtain ⟨_, _, _, offered, hh, _⟩ := hch.cells i j c hc
          have hbelow := add_below hb hh hm ((pairTrees cfg s scores i j left r).map Parse.entry) (by
            intro e he
            obtain ⟨t, ht, rfl⟩ := List.mem_map.1 he
            exact lt_of_le_of_lt (pairTrees_score t ht) (h r (by simp)))
          simp only [hc, Option.getD_some, hbelow, add_zero]
          congr 1
          have : (fun i' j' => if i' = i ∧ j' = j then some c else ch.cells i' j') = ch.cells := by
            funext i' j'
            split
            · rename_i he; obtain ⟨rfl, rfl⟩ := he; exact hc.symm
            · rfl
          rw [this]
        · cases hm
    simp only [overRight, Bool.false_and, Bool.false_eq_true, if_false, hadd]
    exact ih (fun r hr => h r (List.mem_cons_of_mem _ hr))

theorem overRight_good {cfg : Config κ α S} (hb : 0 < cfg.beam) {s : Sent κ S} {scores : List (Nat × S)} {i j k : Nat} (h1 : i < k) (h2 : k ≤ j)
    (hj : j < s.length) {left : Parse κ α S} (hl : Fits cfg s i (k - 1) left) {rights : List (Parse κ α S)} (hr : ∀ r ∈ rights, Fits cfg s k j r)
    (hsorted : rights.Pairwise (fun t u => u.score ≤ t.score)) {ch : Chart κ α S} (hch : ch.Ok cfg s) :
    Good cfg s (fun i' j' => ¬ (i' = i ∧ j' = j)) ch (fun p => overRight p cfg s scores i j left rights ch) := by
  induction rights generalizing ch with
  | nil => exact ⟨ch, rfl, rfl, hch, fun _ _ _ => rfl⟩
  | cons r rs ih =>
    obtain ⟨hs1, hs2⟩ := List.pairwise_cons.1 hsorted
    cases hp : prunable cfg scores ch i j left r with
    | true =>
      refine ⟨ch, by simp [overRight, hp], ?_, hch, fun _ _ _ => rfl⟩
      unfold prunable at hp
      split at hp
      · cases hp
      · rename_i m hm
        simp only [decide_eq_true_eq] at hp
        refine skip_right hb hch hm ?_
        intro r' hr'
        rcases List.mem_cons.1 hr' with rfl | hr'
        · exact hp
        · exact lt_of_le_of_lt (add_le_add (add_le_add (le_refl _) (hs1 r' hr')) (le_refl _)) hp
    | false =>
      obtain ⟨ch1, e1, ok1, same1, _⟩ := chart_add hb hch (by omega) hj _ (pairTrees_fits (scores := scores) h1 h2 hj hl (hr r (by simp)))
      obtain ⟨ch2, e2, e3, ok2, same2⟩ := ih (fun r hr' => hr r (List.mem_cons_of_mem _ hr')) hs2 ok1
      refine ⟨ch2, ?_, ?_, ok2, fun i' j' hne => (same2 i' j' hne).trans (same1 i' j' hne)⟩
      · simp only [overRight, hp, Bool.and_false, Bool.false_eq_true, if_false, e1]; exact e2
      · simp only [overRight, Bool.false_and, Bool.false_eq_true, if_false, e1]; exact e3

theorem overLeft_good {cfg : Config κ α S} (hb : 0 < cfg.beam) {s : Sent κ S} {scores : List (Nat × S)} {i j k : Nat} (h1 : i < k) (h2 : k ≤ j)
    (hj : j < s.length) {lefts : List (Parse κ α S)} (hl : ∀ l ∈ lefts, Fits cfg s i (k - 1) l) {rights : List (Parse κ α S)}
    (hr : ∀ r ∈ rights, Fits cfg s k j r) (hsorted : rights.Pairwise (fun t u => u.score ≤ t.score)) {ch : Chart κ α S} (hch : ch.Ok cfg s) :
    Good cfg s (fun i' j' => ¬ (i' = i ∧ j' = j)) ch (fun p => overLeft p cfg s scores i j rights lefts ch) := by
  induction lefts generalizing ch with
  | nil => exact ⟨ch, rfl, rfl, hch, fun _ _ _ => rfl⟩
  | cons l ls ih =>
    obtain ⟨ch1, e1, e1', ok1, same1⟩ := overRight_good (scores := scores) hb h1 h2 hj (hl l (by simp)) hr hsorted hch
    obtain ⟨ch2, e2, e3, ok2, same2⟩ := ih (fun l hl' => hl l (List.mem_cons_of_mem _ hl')) ok1
    simp only at e1 e1'
    refine ⟨ch2, ?_, ?_, ok2, fun i' j' hne => (same2 i' j' hne).trans (same1 i' j' hne)⟩
    · simp only [overLeft, e1]; exact e2
    · simp only [overLeft, e1']; exact e3

theorem cell_trees {cfg : Config κ α S} {s : Sent κ S} {ch : Chart κ α S} (hch : ch.Ok cfg s) {i j : Nat} {c : Cell (Parse κ α S) κ S} (hc : ch.cells i j = some c) :
    (∀ t ∈ c.trees.map PTree.id, Fits cfg s i j t) ∧ (c.trees.map PTree.id).Pairwise (fun t u => u.score ≤ t.score) ∧
    (c.trees.map PTree.id).Pairwise (fun t u => t.cat ≠ u.cat) := by
  obtain ⟨_, _, _, offered, hh, hf⟩ := hch.cells i j c hc
  have he : ∀ e ∈ c.trees, e = e.id.entry ∧ Fits cfg s i j e.id := fun e he => hf e (hh.best e he).1
  refine ⟨?_, ?_, ?_⟩
  · intro t ht
    obtain ⟨e, hem, rfl⟩ := List.mem_map.1 ht
    exact (he e hem).2
  · rw [List.pairwise_map]
    refine List.Pairwise.imp_of_mem ?_ hh.ranked
    intro a b ha hb h
    have h1 : a.score = a.id.score := congrArg PTree.score (he a ha).1
    have h2 : b.score = b.id.score := congrArg PTree.score (he b hb).1
    rw [← h1, ← h2]; exact h
  · rw [List.pairwise_map]
    refine List.Pairwise.imp_of_mem ?_ hh.distinct
    intro a b ha hb h
    have h1 : a.cat = a.id.cat := congrArg PTree.cat (he a ha).1
    have h2 : b.cat = b.id.cat := congrArg PTree.cat (he b hb).1
    rw [← h1, ← h2]; exact h

theorem atSplit_good {cfg : Config κ α S} (hb : 0 < cfg.beam) {s : Sent κ S} {scores : List (Nat × S)} {i j k : Nat} (h1 : i < k) (h2 : k ≤ j)
    (hj : j < s.length) {ch : Chart κ α S} (hch : ch.Ok cfg s) :
    Good cfg s (fun i' j' => ¬ (i' = i ∧ j' = j)) ch (fun p => atSplit p cfg s scores i j k ch) := by
  cases hl : ch.cells i (k - 1) with
  | none => exact ⟨ch, by simp [atSplit, hl], by simp [atSplit, hl], hch, fun _ _ _ => rfl⟩
  | some l =>
    cases hr : ch.cells k j with
    | none => exact ⟨ch, by simp [atSplit, hl, hr], by simp [atSplit, hl, hr], hch, fun _ _ _ => rfl⟩
    | some r =>
      have := overLeft_good (scores := scores) hb h1 h2 hj (cell_trees hch hl).1 (cell_trees hch hr).1 (cell_trees hch hr).2.1 hch
      simpa only [atSplit, hl, hr] using this

theorem overSplits_good {cfg : Config κ α S} (hb : 0 < cfg.beam) {s : Sent κ S} {scores : List (Nat × S)} {i j : Nat} (hj : j < s.length) (n k : Nat)
    (h1 : i < k) (h2 : k + n ≤ j + 1) {ch : Chart κ α S} (hch : ch.Ok cfg s) :
    Good cfg s (fun i' j' => ¬ (i' = i ∧ j' = j)) ch (fun p => overSplits p cfg s scores i j n k ch) := by
  induction n generalizing k ch with
  | zero => exact ⟨ch, rfl, rfl, hch, fun _ _ _ => rfl⟩
  | succ n ih =>
    obtain ⟨ch1, e1, e1', ok1, same1⟩ := atSplit_good (scores := scores) hb h1 (by omega) hj hch
    obtain ⟨ch2, e2, e3, ok2, same2⟩ := ih (k + 1) (by omega) (by omega) ok1
    simp only at e1 e1'
    refine ⟨ch2, ?_, ?_, ok2, fun i' j' hne => (same2 i' j' hne).trans (same1 i' j' hne)⟩
    · simp only [overSplits, e1]; exact e2
    · simp only [overSplits, e1']; exact e3

theorem overEnds_good {cfg : Config κ α S} (hb : 0 < cfg.beam) {s : Sent κ S} {len : Nat} (hlen : 0 < len) (n j : Nat)
    (h1 : len ≤ j) (h2 : j + n ≤ s.length) {ch : Chart κ α S} (hch : ch.Ok cfg s) :
    Good cfg s (fun i' j' => i' = j') ch (fun p => overEnds p cfg s len n j ch) := by
  induction n generalizing j ch with
  | zero => exact ⟨ch, rfl, rfl, hch, fun _ _ _ => rfl⟩
  | succ n ih =>
    by_cases hm : cfg.maxTrees < ch.count
    · exact ⟨ch, by simp [overEnds, hm], by simp [overEnds, hm], hch, fun _ _ _ => rfl⟩
    · cases hs : s.spanScores (j - len) j with
      | none =>
        have := ih (j + 1) (by omega) (by omega) hch
        simpa only [overEnds, hm, if_false, hs] using this
      | some scores =>
        obtain ⟨ch1, e1, e1', ok1, same1⟩ := overSplits_good (scores := scores) hb (i := j - len) (j := j) (by omega) len (j - len + 1) (by omega) (by omega) hch
        obtain ⟨ch2, e2, e3, ok2, same2⟩ := ih (j + 1) (by omega) (by omega) ok1
        simp only at e1 e1'
        refine ⟨ch2, ?_, ?_, ok2, fun i' j' hne => (same2 i' j' hne).trans (same1 i' j' (by omega))⟩
        · simp only [overEnds, hm, if_false, hs, e1]; exact e2
        · simp only [overEnds, hm, if_false, hs, e1']; exact e3

theorem overLengths_good {cfg : Config κ α S} (hb : 0 < cfg.beam) {s : Sent κ S} (n len : Nat) (hlen : 0 < len) (h2 : len + n ≤ s.length)
    {ch : Chart κ α S} (hch : ch.Ok cfg s) : Good cfg s (fun i' j' => i' = j') ch (fun p => overLengths p cfg s n len ch) := by
  induction n generalizing len ch with
  | zero => exact ⟨ch, rfl, rfl, hch, fun _ _ _ => rfl⟩
  | succ n ih =>
    obtain ⟨ch1, e1, e1', ok1, same1⟩ := overEnds_good hb hlen (s.length - len) len (le_refl _) (by omega) hch
    obtain ⟨ch2, e2, e3, ok2, same2⟩ := ih (len + 1) (by omega) (by omega) ok1
    simp only at e1 e1'
    refine ⟨ch2, ?_, ?_, ok2, fun i' j' hne => (same2 i' j' hne).trans (same1 i' j' hne)⟩
    · simp only [overLengths, e1]; exact e2
    · simp only [overLengths, e1']; exact e3

theorem addWords_good {cfg : Config κ α S} (hb : 0 < cfg.beam) {s : Sent κ S} (n i : Nat) (h : i + n = s.length) {ch : Chart κ α S} (hch : ch.Ok cfg s)
    (hw : ∀ k, (ch.cells k k).isSome ↔ k < i ∧ wordTrees cfg s k ≠ []) :
    ∃ ch', addWords cfg s n i ch = .ok ch' ∧ ch'.Ok cfg s ∧ ∀ k, (ch'.cells k k).isSome ↔ k < s.length ∧ wordTrees cfg s k ≠ [] := by
  induction n generalizing i ch with
  | zero => exact ⟨ch, rfl, hch, by rw [← h]; exact hw⟩
  | succ n ih =>
    obtain ⟨ch1, e1, ok1, same1, hsome⟩ := chart_add hb hch (le_refl i) (by omega) (wordTrees cfg s i) wordTrees_fits
    simp only [addWords, e1]
    refine ih (i + 1) (by omega) ok1 ?_
    intro k
    by_cases hk : k = i
    · subst hk
      rw [hsome, hw k]
      constructor
      · rintro (⟨h1, _⟩ | h)
        · omega
        · exact ⟨by omega, h⟩
      · rintro ⟨_, h⟩; exact .inr h
    · rw [same1 k k (by omega), hw k]
      constructor
      · rintro ⟨h1, h2⟩; exact ⟨by omega, h2⟩
      · rintro ⟨h1, h2⟩; exact ⟨by omega, h2⟩

theorem parse_good {cfg : Config κ α S} (hb : 0 < cfg.beam) (s : Sent κ S) :
    ∃ ch, parseChart true cfg s = .ok ch ∧ parseChart false cfg s = .ok ch ∧ ch.Ok cfg s ∧
      ∀ k, (ch.cells k k).isSome ↔ k < s.length ∧ wordTrees cfg s k ≠ [] := by
  obtain ⟨ch1, e1, ok1, hw⟩ := addWords_good hb (s := s) (cfg := cfg) s.length 0 (by omega) (ch := ⟨fun _ _ => none, 0⟩)
    ⟨by intro i j c hc; simp at hc⟩ (by simp)
  simp only [parseChart, e1]
  by_cases hn : s.length = 0
  · simp only [hn, overLengths]
    exact ⟨ch1, rfl, rfl, ok1, by rw [hn] at hw; exact hw⟩
  · obtain ⟨ch2, e2, e3, ok2, same⟩ := overLengths_good hb (s.length - 1) 1 (by omega) (by omega) ok1
    exact ⟨ch2, e2, e3, ok2, fun k => by rw [same k k rfl]; exact hw k⟩

/-- **C61 (pruning).** For every grammar, sentence, scores, beam of at least 1 and limit: the parser with the score test that leaves the loop
over the right trees gives exactly the chart that it would give without the test, including the number of trees; and it does not raise. -/
theorem C61_pruning {cfg : Config κ α S} (hb : 0 < cfg.beam) (s : Sent κ S) :
    parseChart true cfg s = parseChart false cfg s ∧ ∃ ch, parseChart true cfg s = .ok ch := by
  obtain ⟨ch, e1, e2, _⟩ := parse_good hb s
  exact ⟨e1.trans e2.symm, ch, e1⟩

/-- **C61 (cells).** Every tree in the cell of the span from `i` to `j` is built by the rules, with exactly the words from `i` to `j`, in order;
the trees of a cell are ranked and of different categories. -/
theorem C61_cells {cfg : Config κ α S} (hb : 0 < cfg.beam) (s : Sent κ S) (ch : Chart κ α S) (h : parseChart true cfg s = .ok ch) (i j : Nat)
    (c : Cell (Parse κ α S) κ S) (hc : ch.cells i j = some c) :
    i ≤ j ∧ j < s.length ∧ (∀ t ∈ c.trees.map PTree.id, t.Derived cfg s ∧ t.words = List.range' i (j + 1 - i)) ∧
    (c.trees.map PTree.id).Pairwise (fun t u => u.score ≤ t.score ∧ t.cat ≠ u.cat) := by
  obtain ⟨ch', e1, _, ok, _⟩ := parse_good hb s (cfg := cfg)
  rw [e1] at h; cases h
  obtain ⟨h1, h2, _⟩ := ok.cells i j c hc
  obtain ⟨h3, h4, h5⟩ := cell_trees ok hc
  exact ⟨h1, h2, fun t ht => ⟨(h3 t ht).derived, (h3 t ht).words⟩, h4.and h5⟩

theorem countWords_spec (ch : Chart κ α S) (fuel n : Nat) (hn : ∀ k < n, (ch.cells k k).isSome) :
    (∀ k < countWords ch fuel n, (ch.cells k k).isSome) ∧ n ≤ countWords ch fuel n ∧
    (countWords ch fuel n = n + fuel ∨ (ch.cells (countWords ch fuel n) (countWords ch fuel n)).isSome = false) := by
  induction fuel generalizing n with
  | zero => exact ⟨hn, le_refl _, .inl rfl⟩
  | succ f ih =>
    simp only [countWords]
    by_cases h : (ch.cells n n).isSome
    · rw [if_pos h]
      obtain ⟨h1, h2, h3⟩ := ih (n + 1) (by
        intro k hk
        rcases Nat.lt_succ_iff_lt_or_eq.1 hk with hk | rfl
        · exact hn k hk
        · exact h)
      exact ⟨h1, by omega, by rcases h3 with h3 | h3 <;> [left; right]; omega; exact h3⟩
    · rw [if_neg h]
      exact ⟨hn, le_refl _, .inr (by simpa using h)⟩

/-- **C61 (result).** If every word has a tree, the trees of the result are built by the rules, over all the words in order, of root
categories, best first and of different categories. -/
theorem C61_result {cfg : Config κ α S} (hb : 0 < cfg.beam) (s : Sent κ S) (ch : Chart κ α S) (h : parseChart true cfg s = .ok ch)
    (hw : ∀ k < s.length, wordTrees cfg s k ≠ []) :
    (∀ t ∈ resultRoot ch s, t.Derived cfg s ∧ t.words = List.range s.length ∧ cfg.matchesRoot t.cat = true ∧ t.isUnary = false) ∧
    (resultRoot ch s).Pairwise (fun t u => u.score ≤ t.score ∧ t.cat ≠ u.cat) := by
  obtain ⟨ch', e1, _, ok, hsome⟩ := parse_good hb s (cfg := cfg)
  rw [e1] at h; cases h
  obtain ⟨h1, h2, h3⟩ := countWords_spec ch s.length 0 (by simp)
  have hcount : countWords ch s.length 0 = s.length := by
    rcases h3 with h3 | h3
    · simpa using h3
    · by_contra hne
      have : countWords ch s.length 0 < s.length := by
        by_contra hge
        have h4 : s.length < countWords ch s.length 0 := by omega
        have := (hsome s.length).1 (h1 _ h4)
        omega
      have := (hsome (countWords ch s.length 0)).2 ⟨this, hw _ this⟩
      rw [this] at h3; cases h3
  unfold resultRoot
  rw [hcount]
  cases hn : s.length with
  | zero => simp
  | succ n =>
    simp only
    cases hc : ch.cells 0 n with
    | none => simp
    | some c =>
      obtain ⟨c1, c2, c3⟩ := cell_trees ok hc
      refine ⟨?_, c2.and c3⟩
      intro t ht
      have hf := c1 t ht
      refine ⟨hf.derived, ?_, hf.root rfl (by omega), hf.noUnary rfl (by omega)⟩
      rw [hf.words, List.range_eq_range']; rfl

/-- In general the result is a parse of the words before the first one without a tree. -/
theorem C61_prefix {cfg : Config κ α S} (hb : 0 < cfg.beam) (s : Sent κ S) (ch : Chart κ α S) (h : parseChart true cfg s = .ok ch) :
    ∃ n ≤ s.length, (∀ k < n, wordTrees cfg s k ≠ []) ∧ (n < s.length → wordTrees cfg s n = []) ∧
      ∀ t ∈ resultRoot ch s, t.words = List.range n := by
  obtain ⟨ch', e1, _, ok, hsome⟩ := parse_good hb s (cfg := cfg)
  rw [e1] at h; cases h
  obtain ⟨h1, h2, h3⟩ := countWords_spec ch s.length 0 (by simp)
  refine ⟨countWords ch s.length 0, ?_, ?_, ?_, ?_⟩
  · by_contra hge
    have := (hsome s.length).1 (h1 s.length (by omega))
    omega
  · intro k hk
    exact ((hsome k).1 (h1 k hk)).2
  · intro hlt
    rcases h3 with h3 | h3
    · omega
    · by_contra hne
      have := (hsome (countWords ch s.length 0)).2 ⟨hlt, hne⟩
      rw [this] at h3; cases h3
  · intro t ht
    unfold resultRoot at ht
    split at ht
    · simp at ht
    · rename_i n hn
      split at ht
      · rename_i c hc
        rw [((cell_trees ok hc).1 t ht).words, hn, List.range_eq_range']; rfl
      · simp at ht

/-! ## Examples -/

/-- A toy grammar with categories as strings: `NP` and `S\NP` combine to `S`, which also type changes to `X`; `N` type changes to `NP`. -/
def demoCfg : Config String Unit Int where
  combine l r := if l.cat = "NP" ∧ r.cat = "S\\NP" then [("S", ())] else []
  typeChange t := if t.cat = "N" then [("NP", ())] else []
  typeRaise _ := []
  lexical _ := ()
  coordinated _ := false
  matchesRoot c := decide (c = "S")
  conjId _ := none
  binaryId _ := none
  unaryId _ := none
  weigh := id
  missingCat := -1
  missingSpan := -1
  beam := 2
  maxTrees := 100

def demoSent : Sent String Int := ⟨2, fun i => if i = 0 then [("N", -1), ("NP", -5)] else [("S\\NP", -2)], fun _ _ => some []⟩

example : 0 < demoCfg.beam ∧ (∀ k < demoSent.length, wordTrees demoCfg demoSent k ≠ []) ∧
    (parseChart true demoCfg demoSent).toOption.map (fun ch => (resultRoot ch demoSent).map (fun t => (t.cat, t.words, t.score))) =
      some [("S", [0, 1], -5)] := by
  refine ⟨by decide, by decide +kernel, by decide +kernel⟩

/-- If the second of two words has no supertag, the result is a "parse" of the first word alone, and its category is not a root category. -/
theorem C61_refuted_missing_word : ∃ (s : Sent String Int), s.length = 2 ∧
    (parseChart true demoCfg s).toOption.map (fun ch => (resultRoot ch s).map (fun t => (t.cat, t.words, demoCfg.matchesRoot t.cat))) =
      some [("NP", [0], false)] :=
  ⟨⟨2, fun i => if i = 0 then [("NP", -1)] else [], fun _ _ => some []⟩, rfl, by decide +kernel⟩

end Bobcat
end Lambeq
