import Verif.Tensor.Adjoint
import Verif.Ansatz.SwapTypes
import Verif.Grammar.SpiderProps
import Verif.Grammar.SemanticsCalc

/-!
# Cups, caps, swaps and spiders of any dimension

Models the constructors `Cup.__new__` (grammar.py:1581-1593), `Cap.__new__` (1454-1466), `Swap.__new__` (1853-1863) and `Spider.__new__` (1748-1772) as
inherited by the tensor category (`lambeq/backend/tensor.py` 426-574): on a `Dim` that is not atomic they return a diagram of atomic boxes.
-/

namespace Lambeq
open Diagram
set_option linter.unusedSectionVars false
set_option linter.unusedSimpArgs false

namespace TBox
variable {R : Type}

instance : SwapSig (TBox R) Nat where
  swapBox := .swap
  swap_dom _ _ := rfl
  swap_cod _ _ := rfl

/-- `Cup(left, right)` of atomic dimensions: grammar.py:1562-1579 (the flag is not passed on, tensor.py:495). -/
def atomicCup (l r : Nat) : Except PyErr (Diagram Nat (TBox R)) := if [l] ≠ rotDim (-1) [r] then .error .valueError else .ok (ofBox (.cup l r))

/-- `Cap(left, right)` of atomic dimensions: grammar.py:1435-1452. -/
def atomicCap (l r : Nat) : Except PyErr (Diagram Nat (TBox R)) := if [l] ≠ rotDim 1 [r] then .error .valueError else .ok (ofBox (.cap l r))

/-- grammar.py:1581-1593 `Cup(left, right, is_reversed)` followed by `to_diagram`, in the tensor category. -/
def cupDims (left right : List Nat) (rev : Bool) : Except PyErr (Diagram Nat (TBox R)) :=
  match left, right with
  | [l], [r] => atomicCup l r
  | _, _ =>
    if left ≠ rotDim (if rev then 1 else -1) right then .error .valueError
    else ((left.reverse.zip right).zipIdx).foldlM (fun d x =>
      match atomicCup x.1.1 x.1.2 with
      | .ok b => thenAt d b ((left.length : Int) - 1 - x.2)
      | .error e => .error e) (Diagram.id (left ++ right))

/-- grammar.py:1454-1466 `Cap(left, right, is_reversed)` followed by `to_diagram`, in the tensor category. -/
def capDims (left right : List Nat) (rev : Bool) : Except PyErr (Diagram Nat (TBox R)) :=
  match left, right with
  | [l], [r] => atomicCap l r
  | _, _ =>
    if left ≠ rotDim (if rev then -1 else 1) right then .error .valueError
    else ((left.zip right.reverse).zipIdx).foldlM (fun d x =>
      match atomicCap x.1.1 x.1.2 with
      | .ok b => thenAt d b (x.2 : Int)
      | .error e => .error e) (Diagram.id [])

/-- grammar.py:1748-1772 `Spider(type, n_in, n_out)` followed by `to_diagram`, in the tensor category. -/
def spiderDims (t : List Nat) (nIn nOut : Nat) : Except PyErr (Diagram Nat (TBox R)) :=
  match t with
  | [o] => .ok (ofBox (.spider o nIn nOut))
  | _ =>
    let size := t.length
    match permutation (List.replicate nIn t).flatten ((GDiagram.strideList size (size * nIn)).map Int.ofNat) with
    | .error e => .error e
    | .ok p =>
      match permuted (tensorN (Diagram.id [] :: t.map (fun o => ofBox (.spider o nIn nOut))))
          ((GDiagram.strideList nOut (t.length * nOut)).map Int.ofNat) with
      | .error e => .error e
      | .ok q => andThen p q

/-! ## Lemmas -/

theorem thenAt_ofBox {O B : Type} [BoxSig B O] [DecidableEq O] (d : Diagram O B) (b : B) (A T : List O) (h : d.cod = A ++ BoxSig.dom b ++ T) :
    thenAt d (ofBox b) (A.length : Int) = .ok ⟨d.dom, A ++ BoxSig.cod b ++ T, d.layers ++ [⟨A, b, T⟩]⟩ := by
  unfold thenAt
  have e0 : ((A.length : Int) + (ofBox b : Diagram O B).dom.length) = ((A.length + (BoxSig.dom b).length : Nat) : Int) := by
    simp [ofBox]
  rw [e0, pySlice_nat_to, pySlice_nat_from, h]
  have e2 : (A ++ BoxSig.dom b ++ T).take A.length = A := by rw [List.append_assoc]; exact List.take_left' rfl
  have e3 : (A ++ BoxSig.dom b ++ T).drop (A.length + (BoxSig.dom b).length) = T := List.drop_left' (by simp)
  rw [e2, e3, andThen_eq_ok]
  · simp [tensor_eq, Diagram.id, ofBox, Layer.extend]
  · simp [tensor_eq, Diagram.id, ofBox, h]

theorem atomicCup_self (a : Nat) : (atomicCup a a : Except PyErr (Diagram Nat (TBox R))) = .ok (ofBox (.cup a a)) := by
  rw [atomicCup, if_neg (by simp [rotDim])]

theorem atomicCap_self (a : Nat) : (atomicCap a a : Except PyErr (Diagram Nat (TBox R))) = .ok (ofBox (.cap a a)) := by
  rw [atomicCap, if_neg (by simp [rotDim])]

/-- Nested cups: the innermost first. -/
def cupLayers : List Nat → List (Layer Nat (TBox R))
  | [] => []
  | a :: s => ⟨s.reverse, .cup a a, s⟩ :: cupLayers s

theorem cupLayers_chain : ∀ s : List Nat, Chain (s.reverse ++ s) (cupLayers (R := R) s) []
  | [] => rfl
  | a :: s => ⟨by simp [Layer.dom, BoxSig.dom, dom, sig], by
      have : (⟨s.reverse, .cup a a, s⟩ : Layer Nat (TBox R)).cod = s.reverse ++ s := by simp [Layer.cod, BoxSig.cod, cod, sig]
      rw [this]; exact cupLayers_chain s⟩

theorem cupLoop (L : Nat) : ∀ (s : List Nat) (k : Nat) (d : Diagram Nat (TBox R)), L = k + s.length → d.cod = s.reverse ++ s →
    ((s.zip s).zipIdx k).foldlM (fun d x => match atomicCup x.1.1 x.1.2 with
      | .ok b => thenAt d b ((L : Int) - 1 - x.2)
      | .error e => .error e) d = .ok ⟨d.dom, [], d.layers ++ cupLayers s⟩
  | [], k, d, _, hc => by
      obtain ⟨a, c, ls⟩ := d
      simp at hc
      subst hc
      simp [cupLayers]; rfl
  | a :: s, k, d, hL, hc => by
      rw [List.zip_cons_cons, List.zipIdx_cons, List.foldlM_cons]
      simp only [atomicCup_self]
      have e : ((L : Int) - 1 - (k : Nat)) = (s.reverse.length : Int) := by simp at hL ⊢; omega
      rw [e, thenAt_ofBox d (.cup a a) s.reverse s (by rw [hc]; simp [BoxSig.dom, dom, sig])]
      have := cupLoop L s (k + 1) ⟨d.dom, s.reverse ++ [] ++ s, d.layers ++ [⟨s.reverse, .cup a a, s⟩]⟩ (by simp at hL; omega) (by simp)
      refine Eq.trans ?_ (this.trans (by simp [cupLayers]))
      rfl

theorem cupDims_eq (l : List Nat) (rev : Bool) : cupDims (R := R) l l.reverse rev = .ok ⟨l ++ l.reverse, [], cupLayers l.reverse⟩ := by
  by_cases h1 : l.length = 1
  · obtain ⟨a, rfl⟩ := List.length_eq_one_iff.1 h1
    show atomicCup a a = _
    rw [atomicCup_self]
    simp [ofBox, cupLayers, BoxSig.dom, BoxSig.cod, dom, cod, sig]
  · unfold cupDims
    split
    · simp at h1
    rename_i l _ _ _
    rw [if_neg (by cases rev <;> simp [rotDim])]
    have := cupLoop (R := R) l.length l.reverse 0 (Diagram.id (l ++ l.reverse)) (by simp) (by simp [Diagram.id])
    exact this

/-- Nested caps: the outermost first. -/
def capLayers : List Nat → List Nat → List (Layer Nat (TBox R))
  | _, [] => []
  | pre, a :: s => ⟨pre, .cap a a, pre.reverse⟩ :: capLayers (pre ++ [a]) s

theorem capLayers_chain : ∀ (s pre : List Nat), Chain (pre ++ pre.reverse) (capLayers (R := R) pre s) (pre ++ s ++ (pre ++ s).reverse)
  | [], pre => by
      show pre ++ pre.reverse = _
      simp
  | a :: s, pre => ⟨by simp [Layer.dom, BoxSig.dom, dom, sig], by
      have : (⟨pre, .cap a a, pre.reverse⟩ : Layer Nat (TBox R)).cod = (pre ++ [a]) ++ (pre ++ [a]).reverse := by simp [Layer.cod, BoxSig.cod, cod, sig]
      rw [this]
      have := capLayers_chain s (pre ++ [a])
      simpa using this⟩

theorem capLoop : ∀ (s pre : List Nat) (d : Diagram Nat (TBox R)), d.cod = pre ++ pre.reverse →
    ((s.zip s).zipIdx pre.length).foldlM (fun d x => match atomicCap x.1.1 x.1.2 with
      | .ok b => thenAt d b (x.2 : Int)
      | .error e => .error e) d = .ok ⟨d.dom, pre ++ s ++ (pre ++ s).reverse, d.layers ++ capLayers pre s⟩
  | [], pre, d, hc => by
      obtain ⟨a, c, ls⟩ := d
      simp at hc
      subst hc
      simp [capLayers]; rfl
  | a :: s, pre, d, hc => by
      rw [List.zip_cons_cons, List.zipIdx_cons, List.foldlM_cons]
      simp only [atomicCap_self]
      rw [thenAt_ofBox d (.cap a a) pre pre.reverse (by rw [hc]; simp [BoxSig.dom, dom, sig])]
      have := capLoop s (pre ++ [a]) ⟨d.dom, pre ++ [a, a] ++ pre.reverse, d.layers ++ [⟨pre, .cap a a, pre.reverse⟩]⟩ (by simp)
      rw [show (pre ++ [a]).length = pre.length + 1 by simp] at this
      refine Eq.trans ?_ (this.trans (by simp [capLayers]))
      rfl

theorem capDims_eq (l : List Nat) (rev : Bool) : capDims (R := R) l l.reverse rev = .ok ⟨[], l ++ l.reverse, capLayers [] l⟩ := by
  by_cases h1 : l.length = 1
  · obtain ⟨a, rfl⟩ := List.length_eq_one_iff.1 h1
    show atomicCap a a = _
    rw [atomicCap_self]
    simp [ofBox, capLayers, BoxSig.dom, BoxSig.cod, dom, cod, sig]
  · unfold capDims
    split
    · simp at h1
    rename_i l _ _ _
    rw [if_neg (by cases rev <;> simp [rotDim]), List.reverse_reverse]
    have := capLoop (R := R) l [] (Diagram.id []) rfl
    exact this

variable [CommSemiring R] [StarRing R] [Inhabited R]

/-- The meaning of tensor diagrams. -/
abbrev tI (R : Type) [CommSemiring R] [StarRing R] [Inhabited R] : Interp Nat (TBox R) R := (tnCat (R := R)).interp

theorem tnSwaps : Interp.Swaps (tI R) := by
  intro x y i j k l _ _ _ _
  show (if [k, l] = [i, j].reverse then (1 : R) else 0) = _
  exact if_congr (by simp) rfl rfl

theorem idxN {s i : List Nat} : i ∈ (tI R).idx s ↔ List.Forall₂ (fun n k => k < n) s i := (tI R).mem_idx s i

theorem idxN_reverse {s i : List Nat} : i.reverse ∈ (tI R).idx s.reverse ↔ i ∈ (tI R).idx s := by
  rw [idxN, idxN, List.forall₂_reverse_iff]

theorem sum_idxN_two (a b : Nat) (f : List Nat → R) : ∑ k ∈ (tI R).idx [a, b], f k = ∑ p ∈ Finset.range a, ∑ q ∈ Finset.range b, f [p, q] := by
  rw [Interp.sum_idx_cons]
  refine Finset.sum_congr rfl (fun p _ => ?_)
  rw [Interp.sum_idx_cons]
  exact Finset.sum_congr rfl (fun q _ => by simp [Interp.idx])

/-- What nested cups do. -/
theorem run_cups : ∀ (s : List Nat) (v : List Nat → R), (tI R).run (cupLayers s) v [] = ∑ u ∈ (tI R).idx s, v (u.reverse ++ u)
  | [], v => by simp [cupLayers, Interp.run, Interp.idx]
  | a :: s, v => by
      rw [cupLayers, Interp.run, run_cups s, Interp.sum_idx_cons, Finset.sum_comm]
      refine Finset.sum_congr rfl (fun u hu => ?_)
      have := (tI R).act_split ⟨s.reverse, .cup a a, s⟩ v (yl := u.reverse) (c := []) u (by
        rw [List.length_reverse, List.length_reverse, (tI R).length_of_mem hu]) rfl
      rw [List.nil_append] at this
      rw [this]
      show ∑ k ∈ (tI R).idx [a, a], _ = _
      rw [sum_idxN_two]
      refine Finset.sum_congr rfl (fun p hp => ?_)
      rw [Finset.sum_eq_single p]
      · have : (tI R).ten (.cup a a) [p, p] [] = 1 := by
          show (if [p, p].head? = [p, p].getLast? then (1 : R) else 0) = 1
          simp
        rw [this, mul_one]; simp
      · intro q _ hq
        have : (tI R).ten (.cup a a) [p, q] [] = 0 := by
          show (if [p, q].head? = [p, q].getLast? then (1 : R) else 0) = 0
          rw [if_neg]; simp [Ne.symm hq]
        rw [this, mul_zero]
      · intro h; exact absurd hp h

theorem ten_cap {a p q : Nat} (ha : a ≤ 2) (hp : p < a) (hq : q < a) : (tI R).ten (.cap a a) [] [p, q] = if p = q then 1 else 0 := by
  rw [ten_data (b := cap a a) rfl (capArray a), List.nil_append, get_cap a p q hp hq]
  exact if_congr (by omega) rfl rfl

/-- What nested caps of small dimensions do. -/
theorem run_caps : ∀ (s : List Nat), (∀ a ∈ s, a ≤ 2) → ∀ (pre : List Nat) (v : List Nat → R) (u x y u' : List Nat),
    u ∈ (tI R).idx pre → x ∈ (tI R).idx s → y ∈ (tI R).idx s.reverse →
    (tI R).run (capLayers pre s) v (u ++ x ++ (y ++ u')) = v (u ++ u') * (if y = x.reverse then 1 else 0)
  | [], _, pre, v, u, x, y, u', hu, hx, hy => by
      obtain rfl := List.length_eq_zero_iff.1 ((tI R).length_of_mem hx)
      obtain rfl := List.length_eq_zero_iff.1 ((tI R).length_of_mem hy)
      simp [capLayers, Interp.run]
  | a :: s, hs, pre, v, u, x, y, u', hu, hx, hy => by
      rw [idxN] at hx
      obtain _ | ⟨hp, hx⟩ := hx
      rename_i p x
      rw [List.reverse_cons] at hy
      obtain ⟨y, y2, rfl, hy0, hq⟩ := (tI R).mem_append hy
      rw [idxN] at hq
      obtain _ | ⟨hq, hq'⟩ := hq
      rename_i q y3
      obtain rfl := List.forall₂_nil_left_iff.1 hq'
      have := run_caps s (fun b hb => hs b (List.mem_cons_of_mem _ hb)) (pre ++ [a]) ((tI R).act ⟨pre, .cap a a, pre.reverse⟩ v) (u ++ [p]) x y ([q] ++ u')
        ((tI R).append_mem hu (idxN.2 (.cons hp .nil))) (idxN.2 hx) hy0
      rw [capLayers, Interp.run]
      have e : u ++ p :: x ++ (y ++ [q] ++ u') = u ++ [p] ++ x ++ (y ++ ([q] ++ u')) := by simp
      rw [e, this]
      have h2 := (tI R).act_split ⟨pre, .cap a a, pre.reverse⟩ v (yl := u) (c := [p, q]) u' ((tI R).length_of_mem hu) rfl
      rw [show u ++ [p] ++ ([q] ++ u') = u ++ ([p, q] ++ u') by simp, h2]
      show (∑ k ∈ (tI R).idx [], _) * _ = _
      have h3 : (tI R).idx ([] : List Nat) = {[]} := rfl
      rw [h3, Finset.sum_singleton, ten_cap (hs a (by simp)) hp hq, List.nil_append, mul_assoc]
      congr 1
      have : y ++ [q] = (p :: x).reverse ↔ p = q ∧ y = x.reverse := by
        rw [List.reverse_cons]
        constructor
        · intro h
          obtain ⟨h1, h2⟩ := List.append_inj' h rfl
          simp at h2
          exact ⟨h2.symm, h1⟩
        · rintro ⟨rfl, rfl⟩; rfl
      rw [if_congr this rfl rfl]
      by_cases h1 : p = q <;> by_cases h2 : y = x.reverse <;> simp only [ h1, h2, and_true, and_false, false_and, true_and, if_true, if_false, mul_one, mul_zero, one_mul, and_self]

/-- The meaning of a cup of any dimension. -/
theorem cupDims_spec (l : List Nat) (rev : Bool) : ∃ d : Diagram Nat (TBox R), cupDims l l.reverse rev = .ok d ∧ d.WT ∧ d.dom = l ++ l.reverse ∧ d.cod = [] ∧
    (∀ b ∈ d.boxes, ∃ a ∈ l, b = .cup a a) ∧ ∀ u ∈ (tI R).idx l, ∀ v ∈ (tI R).idx l.reverse, (tI R).mat d (u ++ v) [] = if v = u.reverse then 1 else 0 := by
  refine ⟨_, cupDims_eq l rev, ?_, rfl, rfl, ?_, fun u hu v hv => ?_⟩
  · have := cupLayers_chain (R := R) l.reverse
    rw [List.reverse_reverse] at this
    exact this
  · have : ∀ s : List Nat, ∀ b ∈ (cupLayers (R := R) s).map (·.box), ∃ a ∈ s, b = .cup a a := by
      intro s
      induction s with
      | nil => simp [cupLayers]
      | cons a s ih =>
        intro b hb
        rw [cupLayers, List.map_cons, List.mem_cons] at hb
        rcases hb with rfl | hb
        · exact ⟨a, by simp, rfl⟩
        · obtain ⟨c, hc, e⟩ := ih b hb
          exact ⟨c, List.mem_cons_of_mem _ hc, e⟩
    intro b hb
    obtain ⟨a, ha, e⟩ := this l.reverse b hb
    exact ⟨a, List.mem_reverse.1 ha, e⟩
  · rw [Interp.mat]
    show (tI R).run (cupLayers l.reverse) _ [] = _
    rw [run_cups, Finset.sum_eq_single v]
    · refine if_congr ⟨fun h => ?_, fun h => ?_⟩ rfl rfl
      · have := List.append_inj_left h (by rw [List.length_reverse, (tI R).length_of_mem hv, List.length_reverse, (tI R).length_of_mem hu])
        rw [← this, List.reverse_reverse]
      · rw [h, List.reverse_reverse]
    · intro w hw hne
      rw [if_neg]
      intro h
      exact hne (List.append_inj_right h (by rw [List.length_reverse, (tI R).length_of_mem hw, List.length_reverse, (tI R).length_of_mem hu]))
    · intro h; exact absurd hv h

/-- The meaning of a cap whose dimensions are products of twos. -/
theorem capDims_spec (l : List Nat) (hl : ∀ a ∈ l, a ≤ 2) (rev : Bool) : ∃ d : Diagram Nat (TBox R), capDims l l.reverse rev = .ok d ∧ d.WT ∧ d.dom = [] ∧
    d.cod = l ++ l.reverse ∧ (∀ b ∈ d.boxes, ∃ a ∈ l, b = .cap a a) ∧
    ∀ u ∈ (tI R).idx l, ∀ v ∈ (tI R).idx l.reverse, (tI R).mat d [] (u ++ v) = if v = u.reverse then 1 else 0 := by
  refine ⟨_, capDims_eq l rev, ?_, rfl, rfl, ?_, fun u hu v hv => ?_⟩
  · have := capLayers_chain (R := R) l []
    exact this
  · have : ∀ s pre : List Nat, ∀ b ∈ (capLayers (R := R) pre s).map (·.box), ∃ a ∈ s, b = .cap a a := by
      intro s
      induction s with
      | nil => simp [capLayers]
      | cons a s ih =>
        intro pre b hb
        rw [capLayers, List.map_cons, List.mem_cons] at hb
        rcases hb with rfl | hb
        · exact ⟨a, by simp, rfl⟩
        · obtain ⟨c, hc, e⟩ := ih _ b hb
          exact ⟨c, List.mem_cons_of_mem _ hc, e⟩
    exact this l []
  · have := run_caps l hl [] (fun z => if z = [] then (1 : R) else 0) [] u v [] (by simp [Interp.idx]) hu hv
    simp only [List.nil_append, List.append_nil, if_true, one_mul] at this
    exact this

/-! ## Spiders -/

theorem stride_perm {O B : Type} [SwapSig B O] [DecidableEq O] {a b : Nat} (dom : List O) (hd : dom.length = a * b) :
    ∃ d : Diagram O B, permutation dom ((GDiagram.strideList a (a * b)).map Int.ofNat) = .ok d ∧ d.dom = dom ∧ d.WT ∧ OnlySwaps d.layers ∧
      (∀ {α : Type} (f : Nat → Nat → α), routeWires d.layers (grid b a f) = grid a b (fun i k => f k i)) := by
  obtain ⟨d, e1, e2, e3, e4, e5⟩ := permutation_spec (B := B) dom _ (GDiagram.strideList_valid a b dom.length hd)
  refine ⟨d, e1, e2, e3, e4, ?_⟩
  intro α f
  have := routeWires_of_range d.layers (grid b a f) _ (by rw [grid_length, Nat.mul_comm, ← hd, e5])
  have h2 : (List.map Int.toNat (List.map Int.ofNat (GDiagram.strideList a (a * b)))) = GDiagram.strideList a (a * b) := by
    simp [Function.comp_def]
  rw [h2, GDiagram.strideList_eq, grid_map] at this
  have h3 : grid a b (fun i k => (grid b a f)[i + k * a]?) = grid a b (fun i k => some (f k i)) := by
    apply grid_congr
    intro i k hi hk
    rw [Nat.add_comm]; exact grid_get b a f k i hk hi
  rw [h3, ← grid_map some] at this
  exact (List.map_inj_right (fun _ _ h => Option.some.inj h)).1 this

/-- Rows of a fixed length form a grid. -/
theorem flatten_grid (k : Nat) : ∀ X : List (List Nat), (∀ r ∈ X, r.length = k) → X.flatten = grid X.length k (fun a i => (X.getD a []).getD i 0) := by
  intro X hX
  rw [grid]
  congr 1
  refine List.ext_getElem (by simp) (fun a h1 h2 => ?_)
  simp only [List.getElem_map, List.getElem_range]
  rw [show X.getD a [] = X[a] by simp [List.getD_eq_getElem?_getD, h1]]
  have hl := hX _ (List.getElem_mem h1)
  refine List.ext_getElem (by simp [hl]) (fun i h3 h4 => ?_)
  simp [List.getD_eq_getElem?_getD, h3]

/-- The row of spiders, one for each factor. -/
theorem row_wt (n m : Nat) : ∀ t : List Nat, let d : Diagram Nat (TBox R) := (t.map (fun o => ofBox (.spider o n m))).foldr tensor (Diagram.id [])
    d.WT ∧ d.dom = (t.map (List.replicate n)).flatten ∧ d.cod = (t.map (List.replicate m)).flatten ∧ (∀ b ∈ d.boxes, ∃ a ∈ t, b = .spider a n m)
  | [] => ⟨rfl, rfl, rfl, by simp [boxes, Diagram.id]⟩
  | a :: t => by
      obtain ⟨h1, h2, h3, h4⟩ := row_wt n m t
      simp only [List.map_cons, List.foldr_cons]
      generalize (t.map (fun o => (ofBox (.spider o n m : TBox R)))).foldr tensor (Diagram.id []) = d at *
      refine ⟨(WT.ofBox _).tensor h1, by rw [tensor_dom, h2, List.flatten_cons]; rfl, by rw [tensor_cod, h3, List.flatten_cons]; rfl, ?_⟩
      intro b hb
      rw [boxes, tensor_layers] at hb
      simp only [ofBox, List.map_cons, List.map_nil, List.cons_append, List.nil_append, List.mem_cons, List.map_map] at hb
      rcases hb with rfl | hb
      · exact ⟨a, by simp, rfl⟩
      · obtain ⟨l, hl, rfl⟩ := List.mem_map.1 hb
        obtain ⟨c, hc, e⟩ := h4 l.box (List.mem_map.2 ⟨l, hl, rfl⟩)
        exact ⟨c, List.mem_cons_of_mem _ hc, e⟩

/-- The row of spiders: its value on columns. -/
theorem mat_row (n m : Nat) : ∀ (t : List Nat) (X Y : List (List Nat)), List.Forall₂ (fun a c => c ∈ (tI R).idx (List.replicate n a)) t X →
    List.Forall₂ (fun a c => c ∈ (tI R).idx (List.replicate m a)) t Y →
    let d : Diagram Nat (TBox R) := (t.map (fun o => ofBox (.spider o n m))).foldr tensor (Diagram.id [])
    X.flatten ∈ (tI R).idx d.dom ∧ Y.flatten ∈ (tI R).idx d.cod ∧
      (tI R).mat d X.flatten Y.flatten = if ∀ p ∈ X.zip Y, ∀ c ∈ p.1 ++ p.2, ∀ c' ∈ p.1 ++ p.2, c = c' then 1 else 0
  | [], X, Y, hX, hY => by
      cases hX
      cases hY
      exact ⟨by simp [Diagram.id, Interp.idx], by simp [Diagram.id, Interp.idx], by simp [Interp.mat_id]⟩
  | a :: t, x :: X, y :: Y, hX, hY => by
      obtain _ | ⟨hx, hX⟩ := hX
      obtain _ | ⟨hy, hY⟩ := hY
      obtain ⟨h1, h2, h3, h4⟩ := row_wt (R := R) n m t
      obtain ⟨h5, h6, h7⟩ := mat_row n m t X Y hX hY
      simp only [List.map_cons, List.foldr_cons]
      generalize (t.map (fun o => (ofBox (.spider o n m : TBox R)))).foldr tensor (Diagram.id []) = d at *
      have hb : (ofBox (.spider a n m) : Diagram Nat (TBox R)).WT := WT.ofBox _
      have dx : (ofBox (.spider a n m) : Diagram Nat (TBox R)).dom = List.replicate n a := rfl
      have cx : (ofBox (.spider a n m) : Diagram Nat (TBox R)).cod = List.replicate m a := rfl
      refine ⟨?_, ?_, ?_⟩
      · rw [tensor_dom, List.flatten_cons]; exact (tI R).append_mem hx h5
      · rw [tensor_cod, List.flatten_cons]; exact (tI R).append_mem hy h6
      · rw [List.flatten_cons, List.flatten_cons, (tI R).mat_tensor hb h1 hx h5 hy h6, h7, (tI R).mat_ofBox _ hx hy]
        have hin : InShape (List.replicate (n + m) a) (x ++ y) := by
          rw [List.replicate_add]; exact List.rel_append (idxN.1 hx) (idxN.1 hy)
        have : (tI R).ten (.spider a n m) x y = if ∀ c ∈ x ++ y, ∀ c' ∈ x ++ y, c = c' then 1 else 0 := by
          rw [ten_data (b := spider a n m) rfl rfl, copyArray, NdArray.get_ofFn _ _ hin]
        rw [this, List.zip_cons_cons]
        have key : (∀ p ∈ (x, y) :: X.zip Y, ∀ c ∈ p.1 ++ p.2, ∀ c' ∈ p.1 ++ p.2, c = c') ↔
            (∀ c ∈ x ++ y, ∀ c' ∈ x ++ y, c = c') ∧ ∀ p ∈ X.zip Y, ∀ c ∈ p.1 ++ p.2, ∀ c' ∈ p.1 ++ p.2, c = c' := List.forall_mem_cons
        rw [if_congr key rfl rfl, ite_and]
        by_cases q1 : ∀ c ∈ x ++ y, ∀ c' ∈ x ++ y, c = c'
        · rw [if_pos q1, if_pos q1, one_mul]
        · rw [if_neg q1, if_neg q1, zero_mul]

theorem rep_grid (t : List Nat) (n : Nat) : (List.replicate n t).flatten = grid n t.length (fun _ i => t.getD i 0) := by
  rw [flatten_grid t.length _ (by intro r hr; rw [List.eq_of_mem_replicate hr])]
  rw [List.length_replicate]
  apply grid_congr
  intro a i ha hi
  simp [List.getD_eq_getElem?_getD, ha]

theorem cols_grid (t : List Nat) (n : Nat) : (t.map (List.replicate n)).flatten = grid t.length n (fun i _ => t.getD i 0) := by
  rw [flatten_grid n _ (by intro r hr; obtain ⟨a, _, rfl⟩ := List.mem_map.1 hr; simp)]
  rw [List.length_map]
  apply grid_congr
  intro a i ha hi
  simp [List.getD_eq_getElem?_getD, ha, hi]

/-- The columns of rows. -/
def columns (k : Nat) (X : List (List Nat)) : List (List Nat) := (List.range k).map (fun i => (List.range X.length).map (fun a => (X.getD a []).getD i 0))

theorem columns_mem {t : List Nat} {X : List (List Nat)} (hX : ∀ r ∈ X, r ∈ (tI R).idx t) :
    List.Forall₂ (fun a c => c ∈ (tI R).idx (List.replicate X.length a)) t (columns t.length X) := by
  rw [List.forall₂_iff_get]
  refine ⟨by simp [columns], fun i h1 h2 => ?_⟩
  simp only [columns, List.get_eq_getElem, List.getElem_map, List.getElem_range]
  rw [idxN, List.forall₂_iff_get]
  refine ⟨by simp, fun a h3 h4 => ?_⟩
  simp only [List.get_eq_getElem, List.getElem_map, List.getElem_range, List.getElem_replicate]
  have ha : a < X.length := by simpa using h3
  have hr := idxN.1 (hX X[a] (List.getElem_mem ha))
  rw [List.forall₂_iff_get] at hr
  have := hr.2 i h1 (by rw [← hr.1]; exact h1)
  have hi : i < X[a].length := by rw [← hr.1]; exact h1
  simpa [List.getD_eq_getElem?_getD, ha, hi] using this

theorem grid_columns (k : Nat) (X : List (List Nat)) : grid k X.length (fun i a => (X.getD a []).getD i 0) = (columns k X).flatten := rfl

/-- All columns are constant exactly when all rows are equal. -/
theorem columns_const {k : Nat} {X Y : List (List Nat)} (hX : ∀ r ∈ X ++ Y, r.length = k) :
    (∀ p ∈ (columns k X).zip (columns k Y), ∀ c ∈ p.1 ++ p.2, ∀ c' ∈ p.1 ++ p.2, c = c') ↔ ∀ r ∈ X ++ Y, ∀ r' ∈ X ++ Y, r = r' := by
  have hz : (columns k X).zip (columns k Y) = (List.range k).map (fun i => ((List.range X.length).map (fun a => (X.getD a []).getD i 0),
      (List.range Y.length).map (fun a => (Y.getD a []).getD i 0))) := by
    simp [columns, List.zip_map']
  have hm : ∀ i, ∀ Z : List (List Nat), ∀ c, c ∈ (List.range Z.length).map (fun a => (Z.getD a []).getD i 0) ↔ ∃ r ∈ Z, r.getD i 0 = c := by
    intro i Z c
    simp only [List.mem_map, List.mem_range]
    constructor
    · rintro ⟨a, ha, rfl⟩
      exact ⟨Z[a], List.getElem_mem ha, by simp [List.getD_eq_getElem?_getD, ha]⟩
    · rintro ⟨r, hr, rfl⟩
      obtain ⟨a, ha, rfl⟩ := List.getElem_of_mem hr
      exact ⟨a, ha, by simp [List.getD_eq_getElem?_getD, ha]⟩
  rw [hz]
  constructor
  · intro h r hr r' hr'
    refine List.ext_getElem (by rw [hX r hr, hX r' hr']) (fun i h1 h2 => ?_)
    have hi : i < k := by rw [← hX r hr]; exact h1
    have := h _ (List.mem_map.2 ⟨i, List.mem_range.2 hi, rfl⟩) (r.getD i 0) (by
      rw [List.mem_append, hm, hm]
      exact (List.mem_append.1 hr).imp (fun h => ⟨r, h, rfl⟩) (fun h => ⟨r, h, rfl⟩)) (r'.getD i 0) (by
      rw [List.mem_append, hm, hm]
      exact (List.mem_append.1 hr').imp (fun h => ⟨r', h, rfl⟩) (fun h => ⟨r', h, rfl⟩))
    simpa [List.getD_eq_getElem?_getD, h1, h2] using this
  · intro h p hp
    obtain ⟨i, _, rfl⟩ := List.mem_map.1 hp
    have hm' : ∀ c, c ∈ (List.range X.length).map (fun a => (X.getD a []).getD i 0) ++ (List.range Y.length).map (fun a => (Y.getD a []).getD i 0) ↔
        ∃ r ∈ X ++ Y, r.getD i 0 = c := by
      intro c
      rw [List.mem_append, hm, hm]
      constructor
      · rintro (⟨r, hr, e⟩ | ⟨r, hr, e⟩)
        · exact ⟨r, List.mem_append_left _ hr, e⟩
        · exact ⟨r, List.mem_append_right _ hr, e⟩
      · rintro ⟨r, hr, e⟩
        exact (List.mem_append.1 hr).imp (fun h => ⟨r, h, e⟩) (fun h => ⟨r, h, e⟩)
    intro c hc c' hc'
    obtain ⟨r, hr, rfl⟩ := (hm' c).1 hc
    obtain ⟨r', hr', rfl⟩ := (hm' c').1 hc'
    rw [h r hr r' hr']

theorem flatten_mem {t : List Nat} : ∀ {X : List (List Nat)}, (∀ r ∈ X, r ∈ (tI R).idx t) → X.flatten ∈ (tI R).idx (List.replicate X.length t).flatten
  | [], _ => by simp [Interp.idx]
  | x :: X, h => by
      rw [List.length_cons, List.replicate_succ, List.flatten_cons, List.flatten_cons]
      exact (tI R).append_mem (h x (by simp)) (flatten_mem (fun r hr => h r (List.mem_cons_of_mem _ hr)))

/-- Spiders and swaps. -/
def SpiderOrSwap (b : TBox R) : Prop := (∃ a n m, b = .spider a n m) ∨ ∃ x y, b = .swap x y

/-- The meaning of a spider of any dimension: it compares the multi-indices of its legs. -/
theorem spiderDims_spec (t : List Nat) (n m : Nat) : ∃ d : Diagram Nat (TBox R), spiderDims t n m = .ok d ∧ d.WT ∧ d.dom = (List.replicate n t).flatten ∧
    d.cod = (List.replicate m t).flatten ∧ (∀ b ∈ d.boxes, SpiderOrSwap b) ∧
    ∀ X Y : List (List Nat), X.length = n → Y.length = m → (∀ r ∈ X ++ Y, r ∈ (tI R).idx t) →
      (tI R).mat d X.flatten Y.flatten = if ∀ r ∈ X ++ Y, ∀ r' ∈ X ++ Y, r = r' then 1 else 0 := by
  by_cases ht : t.length = 1
  · obtain ⟨o, rfl⟩ := List.length_eq_one_iff.1 ht
    have hr1 : ∀ n, (List.replicate n [o]).flatten = List.replicate n o := by
      intro n
      induction n with
      | zero => rfl
      | succ n ih => rw [List.replicate_succ, List.flatten_cons, ih]; rfl
    refine ⟨_, rfl, WT.ofBox _, (hr1 n).symm, (hr1 m).symm, ?_, ?_⟩
    · intro b hb
      simp only [boxes, ofBox, List.map_cons, List.map_nil, List.mem_singleton] at hb
      exact .inl ⟨o, n, m, hb⟩
    · intro X Y hX hY hXY
      have fx := flatten_mem (R := R) (X := X) (fun r hr => hXY r (List.mem_append_left _ hr))
      have fy := flatten_mem (R := R) (X := Y) (fun r hr => hXY r (List.mem_append_right _ hr))
      rw [hr1, hX] at fx
      rw [hr1, hY] at fy
      have hin : InShape (List.replicate (n + m) o) (X.flatten ++ Y.flatten) := by
        rw [List.replicate_add]; exact List.rel_append (idxN.1 fx) (idxN.1 fy)
      rw [(tI R).mat_ofBox _ fx fy, ten_data (b := spider o n m) rfl rfl, copyArray, NdArray.get_ofFn _ _ hin]
      refine if_congr ?_ rfl rfl
      rw [← List.flatten_append]
      have h1 : ∀ r ∈ X ++ Y, ∃ c, r = [c] := by
        intro r hr
        have := (tI R).length_of_mem (hXY r hr)
        exact List.length_eq_one_iff.1 this
      constructor
      · intro h r hr r' hr'
        obtain ⟨c, rfl⟩ := h1 r hr
        obtain ⟨c', rfl⟩ := h1 r' hr'
        rw [h c (List.mem_flatten.2 ⟨_, hr, by simp⟩) c' (List.mem_flatten.2 ⟨_, hr', by simp⟩)]
      · intro h c hc c' hc'
        obtain ⟨r, hr, k⟩ := List.mem_flatten.1 hc
        obtain ⟨r', hr', k'⟩ := List.mem_flatten.1 hc'
        obtain ⟨e, rfl⟩ := h1 r hr
        obtain ⟨e', rfl⟩ := h1 r' hr'
        have := h _ hr _ hr'
        simp at k k' this
        rw [k, k', this]
  · obtain ⟨p, p1, p2, p3, p4, p5⟩ := stride_perm (B := TBox R) (a := t.length) (b := n) (List.replicate n t).flatten
      (by rw [rep_grid, grid_length, Nat.mul_comm])
    have hpc : p.cod = (t.map (List.replicate n)).flatten := by
      have := chain_onlySwaps (a := p.dom) p3 p4
      rw [← this, p2, rep_grid, p5, cols_grid]
    let s : Diagram Nat (TBox R) := (t.map (fun o => ofBox (.spider o n m))).foldr tensor (Diagram.id [])
    have hrow : tensorN (Diagram.id [] :: t.map (fun o => ofBox (.spider o n m : TBox R))) = s := by
      rw [tensorN_eq_foldr, List.foldr_cons, tensor_id_nil_left]
    have hs := row_wt (R := R) n m t
    obtain ⟨s1, s2, s3, s4⟩ := hs
    obtain ⟨q, q1, q2, q3, q4, q5⟩ := stride_perm (B := TBox R) (a := m) (b := t.length) s.cod
      (by rw [s3, cols_grid, grid_length, Nat.mul_comm])
    have hqc : q.cod = (List.replicate m t).flatten := by
      have := chain_onlySwaps (a := q.dom) q3 q4
      rw [← this, q2, s3, cols_grid, q5, rep_grid]
    have hsq : s.cod = q.dom := q2.symm
    have hps : p.cod = (Diagram.comp s q).dom := by rw [hpc]; exact s2.symm
    refine ⟨Diagram.comp p (Diagram.comp s q), ?_, comp_wt p3 (comp_wt s1 q3 hsq) hps, p2, hqc, ?_, ?_⟩
    · unfold spiderDims
      split
      · simp at ht
      · simp only
        rw [p1, hrow]
        simp only [permuted]
        rw [Nat.mul_comm t.length m, q1]
        simp only
        rw [andThen_eq_ok hsq]
        simp only
        exact andThen_eq_ok hps
    · intro b hb
      have : b ∈ p.boxes ∨ b ∈ s.boxes ∨ b ∈ q.boxes := by
        simp only [boxes, Diagram.comp, List.map_append, List.mem_append] at hb
        exact hb
      rcases this with h | h | h
      · obtain ⟨l, hl, rfl⟩ := List.mem_map.1 h
        obtain ⟨x, y, e⟩ := p4 l hl
        exact .inr ⟨x, y, e⟩
      · obtain ⟨a, _, e⟩ := s4 b h
        exact .inl ⟨a, n, m, e⟩
      · obtain ⟨l, hl, rfl⟩ := List.mem_map.1 h
        obtain ⟨x, y, e⟩ := q4 l hl
        exact .inr ⟨x, y, e⟩
    · intro X Y hX hY hXY
      have hlen : ∀ r ∈ X ++ Y, r.length = t.length := fun r hr => (tI R).length_of_mem (hXY r hr)
      have hXl : ∀ r ∈ X, r ∈ (tI R).idx t := fun r hr => hXY r (List.mem_append_left _ hr)
      have hYl : ∀ r ∈ Y, r ∈ (tI R).idx t := fun r hr => hXY r (List.mem_append_right _ hr)
      have fx := flatten_mem (R := R) hXl
      have fy := flatten_mem (R := R) hYl
      have cX := columns_mem (R := R) hXl
      have cY := columns_mem (R := R) hYl
      rw [hX] at fx cX
      rw [hY] at fy cY
      obtain ⟨m5, m6, m7⟩ := mat_row (R := R) n m t _ _ cX cY
      have rX : routeWires p.layers X.flatten = (columns t.length X).flatten := by
        rw [flatten_grid t.length X (fun r hr => hlen r (List.mem_append_left _ hr)), hX, p5, ← hX]
        rfl
      have rY : routeWires q.layers (columns t.length Y).flatten = Y.flatten := by
        rw [flatten_grid t.length Y (fun r hr => hlen r (List.mem_append_right _ hr)), ← grid_columns, hY, q5]
      have hmX : (columns t.length X).flatten ∈ (tI R).idx p.cod := by rw [hpc, ← s2]; exact m5
      have hmY : (columns t.length Y).flatten ∈ (tI R).idx s.cod := m6
      have hy : Y.flatten ∈ (tI R).idx q.cod := by rw [hqc]; exact fy
      rw [(tI R).mat_comp' (comp_wt s1 q3 hsq) hps _ hy, Finset.sum_eq_single (columns t.length X).flatten]
      · rw [(tI R).mat_swaps tnSwaps p3 p4 (by rw [p2]; exact fx) hmX, if_pos rX.symm, one_mul, (tI R).mat_comp' q3 hsq _ hy,
          Finset.sum_eq_single (columns t.length Y).flatten]
        · rw [(tI R).mat_swaps tnSwaps q3 q4 (by rw [q2]; exact hmY) hy, if_pos rY.symm, mul_one]
          exact m7.trans (if_congr (columns_const hlen) rfl rfl)
        · intro z hz hne
          rw [(tI R).mat_swaps tnSwaps q3 q4 (by rw [q2]; exact hz) hy, if_neg, mul_zero]
          intro e
          exact hne (Interp.route_inj q.layers (e.symm.trans rY.symm))
        · intro h; exact absurd hmY h
      · intro z hz hne
        rw [(tI R).mat_swaps tnSwaps p3 p4 (by rw [p2]; exact fx) hz, if_neg (by rw [rX]; exact hne), zero_mul]
      · intro h; exact absurd hmX h

end TBox
end Lambeq
