import Verif.Grammar.PermSemantics

/-!
# Swaps of types of any length

Models `Swap.__new__` (grammar.py:1853-1863), which the tensor and quantum categories inherit: a swap of two types that are not both atomic is a diagram
of atomic swaps.
-/

namespace Lambeq
open Diagram
set_option linter.unusedSectionVars false
set_option linter.unusedSimpArgs false

variable {O B : Type} [SwapSig B O] [DecidableEq O]

namespace Diagram

/-- grammar.py:1861-1862: `for i in reversed(range(len(left)))`. -/
def swapTysInner (left : List O) (start : Nat) (ob : O) (d : Diagram O B) : Except PyErr (Diagram O B) :=
  (List.range left.length).reverse.foldlM (fun d (i : Nat) =>
    match left[i]? with
    | some x => thenAt d (ofBox (SwapSig.swapBox x ob)) ((start + i : Nat) : Int)
    | none => .error .indexError) d

/-- grammar.py:1853-1863 `Swap(left, right)` followed by `to_diagram`. -/
def swapTys (left right : List O) : Except PyErr (Diagram O B) :=
  match left, right with
  | [l], [r] => .ok (ofBox (SwapSig.swapBox l r))
  | _, _ => (right.zipIdx).foldlM (fun d obs => swapTysInner left obs.2 obs.1 d) (Diagram.id (left ++ right))

theorem thenAt_swap (d : Diagram O B) (A T : List O) (x y : O) (h : d.cod = A ++ x :: y :: T) :
    thenAt d (ofBox (SwapSig.swapBox x y)) (A.length : Int) = .ok ⟨d.dom, A ++ y :: x :: T, d.layers ++ [⟨A, SwapSig.swapBox x y, T⟩]⟩ := by
  unfold thenAt
  have e0 : ((A.length : Int) + (ofBox (SwapSig.swapBox x y) : Diagram O B).dom.length) = ((A.length + 2 : Nat) : Int) := by
    simp [ofBox, SwapSig.swap_dom]
  rw [e0, pySlice_nat_to, pySlice_nat_from, h]
  have e2 : (A ++ x :: y :: T).take A.length = A := by simp
  have e3 : (A ++ x :: y :: T).drop (A.length + 2) = T := by
    rw [List.drop_append]; simp [List.drop_eq_nil_of_le]
  rw [e2, e3, andThen_eq_ok]
  · simp [tensor_eq, Diagram.id, ofBox, SwapSig.swap_cod, Layer.extend]
  · simp [tensor_eq, Diagram.id, ofBox, SwapSig.swap_dom, h]

theorem swapTysInner_loop (left : List O) (x : O) (n : Nat) : ∀ (A R T : List O) (d : Diagram O B), (∀ i < n, left[i]? = R[i]?) → R.length = n →
    d.cod = A ++ R ++ x :: T →
    ∃ d' ls, (List.range n).reverse.foldlM (fun d (i : Nat) =>
        match left[i]? with
        | some w => thenAt d (ofBox (SwapSig.swapBox w x)) ((A.length + i : Nat) : Int)
        | none => .error .indexError) d = .ok d' ∧ SwapExt d d' ls ∧ d'.cod = A ++ x :: R ++ T ∧
      (∀ {α : Type} (A' R' T' : List α) (x' : α), A'.length = A.length → R'.length = R.length →
          routeWires ls (A' ++ R' ++ x' :: T') = A' ++ x' :: R' ++ T') := by
  induction n with
  | zero =>
    intro A R T d _ hn h
    obtain rfl := List.length_eq_zero_iff.1 hn
    refine ⟨d, [], rfl, SwapExt.refl d, by simpa using h, ?_⟩
    intro α A' R' T' x' _ hR
    obtain rfl : R' = [] := List.length_eq_zero_iff.1 hR
    simp [routeWires]
  | succ n ih =>
    intro A R T d hl hn h
    obtain ⟨R0, y, rfl⟩ : ∃ R0 y, R = R0 ++ [y] := by
      rcases List.eq_nil_or_concat R with h0 | ⟨R0, y, h0⟩
      · subst h0; simp at hn
      · exact ⟨R0, y, by simpa using h0⟩
    have hR0 : R0.length = n := by simpa using hn
    have hy : left[n]? = some y := by rw [hl n (by omega), ← hR0]; simp
    rw [List.range_succ, List.reverse_append]
    simp only [List.reverse_cons, List.reverse_nil, List.nil_append, List.singleton_append, List.foldlM_cons]
    have hstep := thenAt_swap d (A ++ R0) T y x (by rw [h]; simp)
    rw [hy, show A.length + n = (A ++ R0).length by simp [hR0]]
    simp only [hstep]
    obtain ⟨d', ls, h1, h2, h3, h4⟩ := ih A R0 (y :: T) ⟨d.dom, A ++ R0 ++ x :: y :: T, d.layers ++ [⟨A ++ R0, SwapSig.swapBox y x, T⟩]⟩
      (fun i hi => by rw [hl i (by omega), List.getElem?_append_left (by omega)]) hR0 (by simp)
    refine ⟨d', ⟨A ++ R0, SwapSig.swapBox y x, T⟩ :: ls, h1, ?_, by rw [h3]; simp, ?_⟩
    · refine ⟨h2.dom, by rw [h2.layers]; simp, ⟨?_, ?_⟩, ?_⟩
      · rw [h]; simp [Layer.dom, SwapSig.swap_dom]
      · have := h2.chain
        simp only [Layer.cod, SwapSig.swap_cod]
        simpa using this
      · intro l hl
        rcases List.mem_cons.1 hl with rfl | hl
        · exact ⟨y, x, rfl⟩
        · exact h2.swaps l hl
    · intro α A' R' T' x' hA hR
      obtain ⟨R0', y', rfl⟩ : ∃ R0 y, R' = R0 ++ [y] := by
        rcases List.eq_nil_or_concat R' with h0 | ⟨R0, y, h0⟩
        · subst h0; simp at hR
        · exact ⟨R0, y, by simpa using h0⟩
      have hR0' : R0'.length = n := by simp at hR; omega
      simp only [routeWires]
      have := swapAdj_append (A' ++ R0') T' y' x'
      have e : (A ++ R0).length = (A' ++ R0').length := by simp [hA, hR0, hR0']
      rw [e, show A' ++ (R0' ++ [y']) ++ x' :: T' = A' ++ R0' ++ y' :: x' :: T' by simp, this,
        h4 A' R0' (y' :: T') x' hA (by rw [hR0', hR0])]
      simp

theorem swapTys_loop (left : List O) : ∀ (right A : List O) (d : Diagram O B), d.cod = A ++ left ++ right →
    ∃ d' ls, (right.zipIdx A.length).foldlM (fun d obs => swapTysInner left obs.2 obs.1 d) d = .ok d' ∧ SwapExt d d' ls ∧ d'.cod = A ++ right ++ left ∧
      (∀ {α : Type} (A' L' R' : List α), A'.length = A.length → L'.length = left.length → R'.length = right.length →
          routeWires ls (A' ++ L' ++ R') = A' ++ R' ++ L') := by
  intro right
  induction right with
  | nil =>
    intro A d h
    refine ⟨d, [], rfl, SwapExt.refl d, by simpa using h, ?_⟩
    intro α A' L' R' _ _ hR
    obtain rfl : R' = [] := List.length_eq_zero_iff.1 hR
    simp [routeWires]
  | cons x right ih =>
    intro A d h
    obtain ⟨d1, l1, e1, s1, c1, r1⟩ := swapTysInner_loop left x left.length A left right d (fun _ _ => rfl) rfl h
    obtain ⟨d2, l2, e2, s2, c2, r2⟩ := ih (A ++ [x]) d1 (by rw [c1]; simp)
    refine ⟨d2, l1 ++ l2, ?_, s1.trans s2, by rw [c2]; simp, ?_⟩
    · rw [List.zipIdx_cons, List.foldlM_cons]
      rw [show (A ++ [x]).length = A.length + 1 by simp] at e2
      have : swapTysInner left A.length x d = .ok d1 := e1
      simp only [this]
      exact e2
    · intro α A' L' R' hA hL hR
      obtain ⟨x', R', rfl⟩ : ∃ x' R'', R' = x' :: R'' := by
        cases R' with
        | nil => simp at hR
        | cons x' R'' => exact ⟨x', R'', rfl⟩
      rw [routeWires_append, r1 A' L' R' x' hA hL]
      have := r2 (A' ++ [x']) L' R' (by simp [hA]) hL (by simpa using hR)
      simpa using this

/-- The swap of two types is a diagram of swaps that moves the wires of the second type, in order, before those of the first. -/
theorem swapTys_spec (left right : List O) : ∃ d : Diagram O B, swapTys left right = .ok d ∧ d.WT ∧ d.dom = left ++ right ∧ d.cod = right ++ left ∧
    OnlySwaps d.layers ∧ ∀ {α : Type} (L' R' : List α), L'.length = left.length → R'.length = right.length →
      routeWires d.layers (L' ++ R') = R' ++ L' := by
  have key : ∃ d : Diagram O B, (right.zipIdx).foldlM (fun d obs => swapTysInner left obs.2 obs.1 d) (Diagram.id (left ++ right)) = .ok d ∧
      d.WT ∧ d.dom = left ++ right ∧ d.cod = right ++ left ∧ OnlySwaps d.layers ∧
      ∀ {α : Type} (L' R' : List α), L'.length = left.length → R'.length = right.length → routeWires d.layers (L' ++ R') = R' ++ L' := by
    obtain ⟨d, ls, e, s, c, r⟩ := swapTys_loop (B := B) left right [] (Diagram.id (left ++ right)) rfl
    have hl : d.layers = ls := by rw [s.layers]; rfl
    refine ⟨d, e, ?_, s.dom, c, hl ▸ s.swaps, fun L' R' h1 h2 => ?_⟩
    · have := s.chain
      rw [← hl] at this
      show Chain d.dom d.layers d.cod
      rw [s.dom]
      exact this
    · rw [hl]
      exact r [] L' R' rfl h1 h2
  unfold swapTys
  split
  · rename_i l r
    refine ⟨_, rfl, WT.ofBox _, SwapSig.swap_dom l r, SwapSig.swap_cod l r, ?_, fun L' R' h1 h2 => ?_⟩
    · intro x hx
      simp only [ofBox, List.mem_singleton] at hx
      subst hx
      exact ⟨l, r, rfl⟩
    · obtain ⟨a, rfl⟩ := List.length_eq_one_iff.1 h1
      obtain ⟨b, rfl⟩ := List.length_eq_one_iff.1 h2
      rfl
  · exact key

end Diagram

/-- The meaning of the swap of two types. -/
theorem swapTys_mat {R : Type} [CommSemiring R] {I : Interp O B R} (h : I.Swaps) (left right : List O) :
    ∃ d : Diagram O B, swapTys left right = .ok d ∧ d.WT ∧ d.dom = left ++ right ∧ d.cod = right ++ left ∧ OnlySwaps d.layers ∧
      ∀ x ∈ I.idx left, ∀ y ∈ I.idx right, ∀ z ∈ I.idx (right ++ left), I.mat d (x ++ y) z = if z = y ++ x then 1 else 0 := by
  obtain ⟨d, e, w, dd, cd, s, r⟩ := swapTys_spec (B := B) left right
  refine ⟨d, e, w, dd, cd, s, fun x hx y hy z hz => ?_⟩
  rw [I.mat_swaps h w s (by rw [dd]; exact I.append_mem hx hy) (by rw [cd]; exact hz), r x y (I.length_of_mem hx) (I.length_of_mem hy)]

end Lambeq
