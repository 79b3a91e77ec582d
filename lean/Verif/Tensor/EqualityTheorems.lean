import Verif.Tensor.Equality

/-!
# C114: equality of tensor boxes and diagrams
-/

namespace Lambeq
open Diagram
set_option linter.unusedSectionVars false
set_option linter.unusedSimpArgs false
set_option linter.unusedVariables false

namespace TBox

/-! ## Specification -/

/-- The box without its winding. -/
def unwound {R : Type} : TBox R → TBox R
  | gen n d c a _ => gen n d c a 0
  | daggered b => daggered b.unwound
  | b => b

/-- The box, or the one under its daggers, is special, or its name is not that of a special box. -/
def Proper {R : Type} : TBox R → Prop
  | gen n _ _ _ _ => n.toList ∉ [['C', 'U', 'P'], ['C', 'A', 'P'], ['S', 'W', 'A', 'P'], ['S', 'P', 'I', 'D', 'E', 'R']] ∧
      ∀ l, n.toList ≠ l ++ ['†']
  | daggered b => b.Proper
  | _ => True

/-- The array under the daggers of a box that is not special. -/
def given {R : Type} : TBox R → Option (NdArray R)
  | gen _ _ _ a _ => a
  | daggered b => b.given
  | _ => none

/-- The arrays of the boxes are well formed, not empty, and have the same shape. -/
def Comparable {R : Type} (b c : TBox R) : Prop :=
  (∀ x, b.given = some x → x.OK ∧ x.flat ≠ []) ∧ (∀ y, c.given = some y → y.OK ∧ y.flat ≠ []) ∧
    ∀ x y, b.given = some x → c.given = some y → x.shape = y.shape

end TBox

/-! ## Arrays of the same shape -/

theorem range_blocks (p n : Nat) : (List.range n).flatMap (fun i => (List.range p).map (fun k => i * p + k)) = List.range (n * p) := by
  induction n with
  | zero => simp
  | succ n ih =>
    rw [List.range_succ, List.flatMap_append, ih, Nat.succ_mul, List.range_add]
    simp

theorem allIdx_ravel_range (s : List Nat) : (allIdx s).map (ravel s) = List.range s.prod := by
  induction s with
  | nil => rfl
  | cons n s ih =>
    rw [List.prod_cons, ← range_blocks, ← ih]
    simp only [allIdx, List.map_flatMap, List.map_map]
    rfl

theorem broadcast_self (s : List Nat) : broadcastRev s s = some s := by
  induction s with
  | nil => rfl
  | cons x s ih => rw [broadcastRev, if_pos rfl, ih]; rfl

theorem broadcastIdx_self {s i : List Nat} (h : InShape s i) : broadcastIdx s i = i := by
  have hl : i.length = s.length := (List.Forall₂.length_eq h).symm
  rw [broadcastIdx, hl, Nat.sub_self, List.drop_zero]
  clear hl
  induction h with
  | nil => rfl
  | cons hk _ ih =>
    rw [List.zipWith_cons_cons, ih]
    congr 1
    split
    · omega
    · rfl

variable {R : Type} [DecidableEq R] [Inhabited R]

theorem npEqual_same (a b : NdArray R) (ha : a.OK) (hb : b.OK) (h : a.shape = b.shape) : npEqualAll (some a) (some b) = .ok (decide (a = b)) := by
  rw [npEqualAll, ← h, broadcast_self]
  simp only [List.reverse_reverse, Except.ok.injEq]
  rw [Bool.eq_iff_iff, List.all_eq_true, decide_eq_true_iff]
  constructor
  · intro hall
    have gets : ∀ (x : NdArray R), x.OK → x.shape = a.shape → x.flat = (allIdx a.shape).map x.get := by
      intro x hx hs
      have : (allIdx a.shape).map x.get = ((allIdx a.shape).map (ravel a.shape)).map (fun k => x.flat.getD k default) := by
        rw [List.map_map]
        refine List.map_congr_left ?_
        intro i _
        rw [NdArray.get, hs]; rfl
      rw [this, allIdx_ravel_range, ← hs, ← show x.flat.length = x.shape.prod from hx]
      refine List.ext_getElem (by simp) ?_
      intro k h1 h2
      simp [List.getD_eq_getElem?_getD, List.getElem?_eq_getElem h1]
    refine NdArray.ext h ?_
    rw [gets a ha rfl, gets b hb h.symm]
    refine List.map_congr_left ?_
    intro i hi
    have := hall i hi
    rw [broadcastIdx_self (NdArray.mem_allIdx.1 hi)] at this
    exact beq_iff_eq.1 this
  · rintro rfl
    intro i _
    simp

namespace TBox
variable [Zero R] [One R]

/-- The fields decide on boxes of no special class. -/
theorem fields_gen (n n' : String) (d c d' c' : List Nat) (x y : Option (NdArray R)) (z z' : Int)
    (h : Comparable (gen n d c x z) (gen n' d' c' y z')) :
    ∃ r, eqFields (gen n d c x z) (gen n' d' c' y z') = .ok r ∧ (r = true ↔ unwound (gen n d c x z) = unwound (gen n' d' c' y z')) := by
  obtain ⟨h1, h2, h3⟩ := h
  simp only [given] at h1 h2 h3
  have key : eqFields (gen n d c x z) (gen n' d' c' y z') = if n.toList = n'.toList then (if d = d' then (if c = c' then npEqualAll x y else .ok false)
      else .ok false) else .ok false := rfl
  rw [key]
  simp only [unwound, gen.injEq]
  by_cases e1 : n.toList = n'.toList
  · have e1' : n = n' := String.toList_injective e1
    subst e1'
    rw [if_pos rfl]
    by_cases e2 : d = d'
    · subst e2
      rw [if_pos rfl]
      by_cases e3 : c = c'
      · subst e3
        rw [if_pos rfl]
        cases x with
        | none =>
          cases y with
          | none => exact ⟨true, rfl, by simp⟩
          | some y =>
            refine ⟨y.flat.isEmpty, rfl, ?_⟩
            have := (h2 y rfl).2
            simp [this]
        | some x =>
          cases y with
          | none =>
            refine ⟨x.flat.isEmpty, rfl, ?_⟩
            have := (h1 x rfl).2
            simp [this]
          | some y => exact ⟨_, npEqual_same x y (h1 x rfl).1 (h2 y rfl).1 (h3 x y rfl rfl), by simp⟩
      · rw [if_neg e3]; exact ⟨false, rfl, by simp [e3]⟩
    · rw [if_neg e2]; exact ⟨false, rfl, by simp [e2]⟩
  · rw [if_neg e1]
    exact ⟨false, rfl, by simp only [Bool.false_eq_true, false_iff, not_and]; rintro rfl; exact absurd rfl e1⟩

/-- A box of no special class differs from one of a special class. -/
theorem fields_special (n : String) (d c : List Nat) (x : Option (NdArray R)) (z : Int) (b : TBox R) (hp : Proper (gen n d c x z))
    (hb : ∀ n' d' c' y z', b ≠ gen n' d' c' y z') : eqFields (gen n d c x z) b = .ok false := by
  rw [eqFields, if_neg]
  obtain ⟨h1, h2⟩ := hp
  simp only [List.mem_cons, List.not_mem_nil, or_false, not_or] at h1
  cases b with
  | gen n' d' c' y z' => exact absurd rfl (hb _ _ _ _ _)
  | cup l r => exact h1.1
  | cap l r => exact h1.2.1
  | swap l r => exact h1.2.2.1
  | spider t m k => exact h1.2.2.2
  | daggered b => exact h2 _

/-- **C114 (boxes).** Comparing two boxes whose arrays have the same shape raises nothing, and they are equal just when they are the same
box but for the winding, if no plain box has the name of a special one. -/
theorem C114_boxes_partial (b c : TBox R) (hb : Proper b) (hc : Proper c) (h : Comparable b c) :
    ∃ r, eqBox b c = .ok r ∧ (r = true ↔ b.unwound = c.unwound) := by
  induction b generalizing c with
  | gen n d e x z =>
    cases c with
    | gen n' d' e' y z' => exact fields_gen n n' d e d' e' x y z z' h
    | _ => exact ⟨false, by rw [eqBox]; exact fields_special n d e x z _ hb (by simp), by simp [unwound]⟩
  | daggered b ih =>
    cases c with
    | gen n d e x z => exact ⟨false, by rw [eqBox]; exact fields_special n d e x z _ hc (by simp), by simp [unwound]⟩
    | daggered c =>
      obtain ⟨r, h1, h2⟩ := ih c hb hc h
      exact ⟨r, by rw [eqBox, h1], by rw [h2]; simp [unwound]⟩
    | _ => exact ⟨false, rfl, by simp [unwound]⟩
  | cup l r =>
    cases c with
    | gen n d e x z => exact ⟨false, by rw [eqBox]; exact fields_special n d e x z _ hc (by simp), by simp [unwound]⟩
    | cup l' r' => exact ⟨_, rfl, by simp [unwound]⟩
    | _ => exact ⟨false, rfl, by simp [unwound]⟩
  | cap l r =>
    cases c with
    | gen n d e x z => exact ⟨false, by rw [eqBox]; exact fields_special n d e x z _ hc (by simp), by simp [unwound]⟩
    | cap l' r' => exact ⟨_, rfl, by simp [unwound]⟩
    | _ => exact ⟨false, rfl, by simp [unwound]⟩
  | swap l r =>
    cases c with
    | gen n d e x z => exact ⟨false, by rw [eqBox]; exact fields_special n d e x z _ hc (by simp), by simp [unwound]⟩
    | swap l' r' => exact ⟨_, rfl, by simp [unwound]⟩
    | _ => exact ⟨false, rfl, by simp [unwound]⟩
  | spider t m k =>
    cases c with
    | gen n d e x z => exact ⟨false, by rw [eqBox]; exact fields_special n d e x z _ hc (by simp), by simp [unwound]⟩
    | spider t' m' k' => exact ⟨_, rfl, by simp [unwound, and_assoc]⟩
    | _ => exact ⟨false, rfl, by simp [unwound]⟩

theorem unwound_winding (b c : TBox R) (h : b.unwound = c.unwound) (hz : b.winding = c.winding) : b = c := by
  induction b generalizing c with
  | gen n d e x z =>
    cases c <;> simp only [unwound, gen.injEq, reduceCtorEq] at h
    obtain ⟨rfl, rfl, rfl, rfl, _⟩ := h
    simp only [winding] at hz
    rw [hz]
  | daggered b ih =>
    cases c <;> simp only [unwound, daggered.injEq, reduceCtorEq] at h
    rw [ih _ h hz]
  | _ => cases c <;> simp_all [unwound]

/-- **C114 (hash).** Boxes of the same winding that are equal have the same text, and so the same hash. -/
theorem C114_hash_partial (b c : TBox R) (hb : Proper b) (hc : Proper c) (h : Comparable b c) (hz : b.winding = c.winding)
    (he : eqBox b c = .ok true) : text b = text c := by
  obtain ⟨r, h1, h2⟩ := C114_boxes_partial b c hb hc h
  rw [he, Except.ok.injEq] at h1
  rw [unwound_winding b c (h2.1 h1.symm) hz]

end TBox

/-- **C114 (diagrams).** Comparing two diagrams raises nothing, and they are equal just when they are the same but for the windings of their
boxes, if the arrays of all boxes have the same shape wherever they are compared, and no plain box has the name of a special one. -/
theorem C114_diagrams_partial [Zero R] [One R] (d e : Diagram Nat (TBox R)) (hd : ∀ x ∈ d.layers, x.box.Proper) (he : ∀ y ∈ e.layers, y.box.Proper)
    (h : ∀ xy ∈ d.layers.zip e.layers, TBox.Comparable xy.1.box xy.2.box) :
    ∃ r, eqDiagram d e = .ok r ∧ (r = true ↔ d.dom = e.dom ∧ d.cod = e.cod ∧
      d.layers.map (fun x => (x.left, x.box.unwound, x.right)) = e.layers.map (fun x => (x.left, x.box.unwound, x.right))) := by
  have main : ∀ (l m : List (Layer Nat (TBox R))), (∀ x ∈ l, x.box.Proper) → (∀ y ∈ m, y.box.Proper) →
      (∀ xy ∈ l.zip m, TBox.Comparable xy.1.box xy.2.box) → ∃ r, eqLayers l m = .ok r ∧
        (r = true ↔ l.map (fun x => (x.left, x.box.unwound, x.right)) = m.map (fun x => (x.left, x.box.unwound, x.right))) := by
    intro l
    induction l with
    | nil =>
      intro m _ _ _
      cases m with
      | nil => exact ⟨true, rfl, by simp⟩
      | cons y m => exact ⟨false, rfl, by simp⟩
    | cons x l ih =>
      intro m hl hm h
      cases m with
      | nil => exact ⟨false, rfl, by simp⟩
      | cons y m =>
        simp only [List.map_cons, List.cons.injEq, Prod.mk.injEq]
        rw [eqLayers]
        by_cases e1 : x.left = y.left
        · rw [if_pos e1]
          obtain ⟨r, h1, h2⟩ := TBox.C114_boxes_partial x.box y.box (hl x (by simp)) (hm y (by simp)) (h (x, y) (by simp))
          rw [h1]
          cases r with
          | false => exact ⟨false, rfl, by simp only [Bool.false_eq_true, false_iff] at h2 ⊢; tauto⟩
          | true =>
            simp only [true_iff] at h2
            dsimp only
            by_cases e2 : x.right = y.right
            · rw [if_pos e2]
              obtain ⟨r', h3, h4⟩ := ih m (fun x hx => hl x (by simp [hx])) (fun y hy => hm y (by simp [hy])) (fun xy hxy => h xy (by simp [hxy]))
              exact ⟨r', h3, by rw [h4]; tauto⟩
            · rw [if_neg e2]; exact ⟨false, rfl, by simp only [Bool.false_eq_true, false_iff]; tauto⟩
        · rw [if_neg e1]; exact ⟨false, rfl, by simp only [Bool.false_eq_true, false_iff]; tauto⟩
  rw [eqDiagram]
  by_cases e1 : d.dom = e.dom ∧ d.cod = e.cod
  · rw [if_pos e1]
    by_cases e2 : d.layers.length = e.layers.length
    · rw [if_pos e2]
      obtain ⟨r, h1, h2⟩ := main _ _ hd he h
      exact ⟨r, h1, by rw [h2]; tauto⟩
    · rw [if_neg e2]
      refine ⟨false, rfl, ?_⟩
      simp only [Bool.false_eq_true, false_iff]
      rintro ⟨_, _, h3⟩
      exact e2 (by simpa using congrArg List.length h3)
  · rw [if_neg e1]; exact ⟨false, rfl, by simp only [Bool.false_eq_true, false_iff]; tauto⟩

namespace TBox

/-- **C114 (meaning).** Boxes that are the same but for the winding have the same array if their windings are both even or both odd. -/
theorem C114_meaning {R : Type} [DecidableEq R] [Inhabited R] [CommSemiring R] [StarRing R] (b c : TBox R) (hb : Proper b) (hc : Proper c) (h : Comparable b c)
    (hz : b.winding % 2 = c.winding % 2) (he : eqBox b c = .ok true) : b.array = c.array ∧ b.dom = c.dom ∧ b.cod = c.cod := by
  obtain ⟨r, h1, h2⟩ := C114_boxes_partial b c hb hc h
  rw [he, Except.ok.injEq] at h1
  have hu := h2.1 h1.symm
  clear he h1 h2 h hb hc
  induction b generalizing c with
  | gen n d e x z =>
    cases c <;> simp only [unwound, gen.injEq, reduceCtorEq] at hu
    obtain ⟨rfl, rfl, rfl, rfl, _⟩ := hu
    simp only [winding] at hz
    exact ⟨by simp only [array, hz], rfl, rfl⟩
  | daggered b ih =>
    cases c with
    | daggered c =>
      simp only [unwound, daggered.injEq] at hu
      obtain ⟨h1, h2, h3⟩ := ih c hz hu
      refine ⟨?_, h3, h2⟩
      simp only [array, h1, h2, h3]
    | _ => simp [unwound] at hu
  | _ => cases c <;> simp_all [unwound]

/-! ## Examples -/

/-- A word with a matrix that is not symmetric. -/
def demoWord : TBox Int := gen "w" [] [2, 2] (some ⟨[2, 2], [0, 1, 0, 0]⟩) 0

example : Proper demoWord ∧ Proper (daggered demoWord) ∧ Comparable demoWord demoWord ∧ eqBox demoWord demoWord = .ok true ∧
    eqBox demoWord (gen "w" [] [2, 2] (some ⟨[2, 2], [0, 1, 0, 5]⟩) 0) = .ok false ∧ eqBox demoWord (daggered demoWord) = .ok false ∧
    eqBox (daggered demoWord) (daggered demoWord) = .ok true := by
  have p : Proper demoWord := by
    refine ⟨by decide +kernel, ?_⟩
    intro l hl
    have := congrArg List.getLast? hl
    rw [List.getLast?_append] at this
    revert this
    simp only [List.getLast?_singleton, Option.some_or]
    decide +kernel
  refine ⟨p, p, ?_, by decide +kernel, by decide +kernel, by decide +kernel, by decide +kernel⟩
  refine ⟨?_, ?_, ?_⟩
  · rintro x h; cases h; exact ⟨rfl, by simp⟩
  · rintro x h; cases h; exact ⟨rfl, by simp⟩
  · rintro x y h h'; cases h; cases h'; rfl

example : let d : Diagram Nat (TBox Int) := ⟨[], [2, 2], [⟨[], demoWord, []⟩]⟩
    eqDiagram d d = .ok true ∧ eqDiagram d ⟨[], [2, 2], []⟩ = .ok false := by
  constructor <;> decide +kernel

/-- **C114 (refuted: conjugates).** A box is equal to its conjugate, although their arrays differ, and so do their texts and hashes. The same
holds for the diagrams of these boxes. -/
theorem C114_refuted_conjugate : eqBox demoWord (demoWord.rotate 1) = .ok true ∧
    demoWord.array = .ok ⟨[2, 2], [0, 1, 0, 0]⟩ ∧ (demoWord.rotate 1).array = .ok ⟨[2, 2], [0, 0, 1, 0]⟩ ∧
    text demoWord ≠ text (demoWord.rotate 1) ∧
    eqDiagram (⟨[], [2, 2], [⟨[], demoWord, []⟩]⟩ : Diagram Nat (TBox Int)) ⟨[], [2, 2], [⟨[], demoWord.rotate 1, []⟩]⟩ = .ok true := by
  refine ⟨by decide +kernel, by decide +kernel, by decide +kernel, by decide +kernel, by decide +kernel⟩

/-- **C114 (refuted: shapes).** Comparing boxes whose arrays have different shapes may raise `ValueError`, although both can be evaluated
and even to the same array; or find them equal although their arrays differ. -/
theorem C114_refuted_shapes :
    eqBox demoWord (gen "w" [] [2, 2] (some ⟨[4], [0, 1, 0, 0]⟩) 0) = .error .valueError ∧
    (gen "w" [] [2, 2] (some ⟨[4], [0, 1, 0, 0]⟩) 0 : TBox Int).array = demoWord.array ∧
    eqBox (gen "w" [] [4] (some ⟨[2, 2, 1], [0, 1, 0, 1]⟩) 0 : TBox Int) (gen "w" [] [4] (some ⟨[1, 2, 2], [0, 0, 1, 1]⟩) 0) = .ok true ∧
    (gen "w" [] [4] (some ⟨[2, 2, 1], [0, 1, 0, 1]⟩) 0 : TBox Int).array = .ok ⟨[4], [0, 1, 0, 1]⟩ ∧
    (gen "w" [] [4] (some ⟨[1, 2, 2], [0, 0, 1, 1]⟩) 0 : TBox Int).array = .ok ⟨[4], [0, 0, 1, 1]⟩ := by
  refine ⟨by decide +kernel, by decide +kernel, by decide +kernel, by decide +kernel, by decide +kernel⟩

/-- **C114 (refuted: names).** A box that is named like the dagger of another, with the array of that other, is equal to the dagger, although
their arrays differ. -/
theorem C114_refuted_names :
    eqBox (gen "f†" [2] [2] (some ⟨[2, 2], [0, 1, 0, 0]⟩) 0 : TBox Int) (daggered (gen "f" [2] [2] (some ⟨[2, 2], [0, 1, 0, 0]⟩) 0)) = .ok true ∧
    (gen "f†" [2] [2] (some ⟨[2, 2], [0, 1, 0, 0]⟩) 0 : TBox Int).array = .ok ⟨[2, 2], [0, 1, 0, 0]⟩ ∧
    (daggered (gen "f" [2] [2] (some ⟨[2, 2], [0, 1, 0, 0]⟩) 0) : TBox Int).array = .ok ⟨[2, 2], [0, 0, 1, 0]⟩ := by
  refine ⟨by decide +kernel, by decide +kernel, by decide +kernel⟩

end TBox
end Lambeq
