import Verif.Grammar.DiagramProps
import Mathlib.Data.List.Perm.Subperm
import Mathlib.Data.List.Nodup

/-!
# Permutations of wires

Models `lambeq/backend/grammar.py`, `Diagram.permutation` and `permuted` (1138-1166), for every category with swap boxes (the methods are
inherited by the tensor and quantum diagrams).
-/

namespace Lambeq
set_option linter.unusedSimpArgs false
set_option linter.unnecessarySeqFocus false
set_option linter.unusedSectionVars false
open Diagram

/-- A category with swaps: the special box `swap` of atomic types. -/
class SwapSig (B : Type) (O : outParam Type) extends BoxSig B O where
  swapBox : O → O → B
  swap_dom : ∀ x y, BoxSig.dom (swapBox x y) = [x, y]
  swap_cod : ∀ x y, BoxSig.cod (swapBox x y) = [y, x]

variable {O B : Type} [SwapSig B O] [DecidableEq O]

namespace Diagram

/-- grammar.py:1155-1159: `diagram >>= id(cod[:i]) @ swap(*cod[i:i+2]) @ id(cod[i+2:])`. -/
def swapStep (d : Diagram O B) (i : Nat) : Except PyErr (Diagram O B) :=
  match pySlice d.cod (some i) (some (i + 2 : Nat)) with
  | [x, y] => andThen d (tensor (tensor (Diagram.id (pySlice d.cod none (some i))) (ofBox (SwapSig.swapBox x y)))
      (Diagram.id (pySlice d.cod (some (i + 2 : Nat)) none)))
  | _ => .error .typeError

/-- grammar.py:1154-1159: `for i in reversed(range(lo, hi))`. -/
def swapLoop (d : Diagram O B) (lo hi : Nat) : Except PyErr (Diagram O B) :=
  (List.range' lo (hi - lo)).reverse.foldlM swapStep d

/-- grammar.py:1150-1162, the main loop over the remaining values of `out_index`. -/
def permLoop (p : List Nat) : List Nat → List Nat → Diagram O B → Except PyErr (Diagram O B)
  | [], _, d => .ok d
  | k :: ks, wi, d =>
    match p[k]? with
    | none => .error .indexError
    | some pk =>
      match wi[pk]? with
      | none => .error .indexError
      | some inIdx =>
        if ¬ (inIdx ≥ k) then .error .assertionError
        else match swapLoop d k inIdx with
          | .error e => .error e
          | .ok d' => permLoop p ks (wi.mapIdx (fun i w => if i < pk then w + 1 else w)) d'

/-- grammar.py:1142-1143: the validity test on the permutation argument. -/
def validPerm (n : Nat) (p : List Int) : Bool :=
  decide (p.length = n) && p.all (fun x => decide (0 ≤ x ∧ x < n)) &&
    (List.range n).all (fun i => decide ((i : Int) ∈ p))

/-- grammar.py:1138-1163 -/
def permutation (dom : List O) (p : List Int) : Except PyErr (Diagram O B) :=
  if ¬ validPerm dom.length p then .error .valueError
  else permLoop (p.map Int.toNat) (List.range (dom.length - 1)) (List.range dom.length) (Diagram.id dom)

/-- grammar.py:1165-1166 -/
def permuted (d : Diagram O B) (p : List Int) : Except PyErr (Diagram O B) :=
  match permutation d.cod p with
  | .ok q => andThen d q
  | .error e => .error e

end Diagram

/-! ## Specification of wire routing -/

/-- Exchange the elements at positions `i` and `i+1`. -/
def swapAdj {α : Type} (i : Nat) (xs : List α) : List α :=
  xs.take i ++ (match xs.drop i with
    | a :: b :: t => b :: a :: t
    | r => r)

/-- Follow labels `xs` put on the input wires through a list of swap layers; the result lists the
labels seen on the output wires. -/
def routeWires {α : Type} : List (Layer O B) → List α → List α
  | [], xs => xs
  | l :: ls, xs => routeWires ls (swapAdj l.left.length xs)

/-- Every box is a swap. -/
def OnlySwaps (ls : List (Layer O B)) : Prop := ∀ l ∈ ls, ∃ x y, l.box = SwapSig.swapBox x y

theorem swapAdj_append {α : Type} (A T : List α) (a b : α) :
    swapAdj A.length (A ++ a :: b :: T) = A ++ b :: a :: T := by
  simp [swapAdj]

theorem swapAdj_map {α β : Type} (f : α → β) (i : Nat) (xs : List α) :
    swapAdj i (xs.map f) = (swapAdj i xs).map f := by
  unfold swapAdj
  rw [← List.map_drop, ← List.map_take]
  rcases h : xs.drop i with _ | ⟨a, _ | ⟨b, t⟩⟩ <;> simp

theorem routeWires_map {α β : Type} (f : α → β) (ls : List (Layer O B)) (xs : List α) :
    routeWires ls (xs.map f) = (routeWires ls xs).map f := by
  induction ls generalizing xs with
  | nil => rfl
  | cons l ls ih => simp [routeWires, swapAdj_map, ih]

theorem routeWires_append {α : Type} (l1 l2 : List (Layer O B)) (xs : List α) :
    routeWires (l1 ++ l2) xs = routeWires l2 (routeWires l1 xs) := by
  induction l1 generalizing xs with
  | nil => rfl
  | cons l ls ih => simp [routeWires, ih]

/-- On the wires' own types, routing computes the codomain. -/
theorem chain_onlySwaps {a c : List O} {ls : List (Layer O B)} (h : Chain a ls c) (hs : OnlySwaps ls) :
    routeWires ls a = c := by
  induction ls generalizing a with
  | nil => exact h
  | cons l ls ih =>
    obtain ⟨x, y, hb⟩ := hs l (by simp)
    have h1 := h.1
    have h2 := ih h.2 (fun l hl => hs l (by simp [hl]))
    simp only [routeWires]
    rw [← h1]
    have e1 : l.dom = l.left ++ x :: y :: l.right := by simp [Layer.dom, hb, SwapSig.swap_dom]
    have e2 : l.cod = l.left ++ y :: x :: l.right := by simp [Layer.cod, hb, SwapSig.swap_cod]
    rw [e1, swapAdj_append, ← e2]; exact h2

theorem map_getElem_range {α : Type} (xs : List α) :
    (List.range xs.length).map (fun i => xs[i]?) = xs.map some := by
  apply List.ext_getElem?
  intro i
  simp [List.getElem?_map, List.getElem?_range]
  by_cases h : i < xs.length <;> simp [h]

/-- Routing of arbitrary labels is determined by the routing of positions. -/
theorem routeWires_of_range {α : Type} (ls : List (Layer O B)) (xs : List α) (p : List Nat)
    (h : routeWires ls (List.range xs.length) = p) :
    (routeWires ls xs).map some = p.map (fun i => xs[i]?) := by
  rw [← routeWires_map, ← map_getElem_range, routeWires_map, h]

/-- `d'` extends `d` by the swap layers `ls`. -/
structure SwapExt (d d' : Diagram O B) (ls : List (Layer O B)) : Prop where
  dom : d'.dom = d.dom
  layers : d'.layers = d.layers ++ ls
  chain : Chain d.cod ls d'.cod
  swaps : OnlySwaps ls

theorem SwapExt.refl (d : Diagram O B) : SwapExt d d [] := ⟨rfl, by simp, rfl, by simp [OnlySwaps]⟩

theorem SwapExt.trans {a b c : Diagram O B} {l m : List (Layer O B)} (h : SwapExt a b l) (k : SwapExt b c m) :
    SwapExt a c (l ++ m) :=
  ⟨by rw [k.dom, h.dom], by rw [k.layers, h.layers, List.append_assoc], h.chain.append k.chain, by
    intro x hx
    rcases List.mem_append.1 hx with hx | hx
    · exact h.swaps x hx
    · exact k.swaps x hx⟩

namespace Diagram

theorem swapStep_eq (d : Diagram O B) (A T : List O) (x y : O) (h : d.cod = A ++ x :: y :: T) :
    swapStep d A.length = .ok ⟨d.dom, A ++ y :: x :: T, d.layers ++ [⟨A, SwapSig.swapBox x y, T⟩]⟩ := by
  unfold swapStep
  rw [pySlice_nat_nat, pySlice_nat_to, pySlice_nat_from, h]
  have e1 : (List.drop A.length (A ++ x :: y :: T)).take (A.length + 2 - A.length) = [x, y] := by
    rw [show A.length + 2 - A.length = 2 by omega]; simp
  have e2 : (A ++ x :: y :: T).take A.length = A := by simp
  have e3 : (A ++ x :: y :: T).drop (A.length + 2) = T := by
    rw [List.drop_append]; simp [List.drop_eq_nil_of_le]
  rw [e1, e2, e3]
  simp only
  rw [andThen_eq_ok]
  · simp [tensor_eq, Diagram.id, ofBox, SwapSig.swap_cod, Layer.extend]
  · simp [tensor_eq, Diagram.id, ofBox, SwapSig.swap_dom, h]

/-- The inner swap loop moves the wire at position `|A|+|R|` to position `|A|`. -/
theorem swapLoop_eq (A R T : List O) (x : O) (d : Diagram O B) (h : d.cod = A ++ R ++ x :: T) :
    ∃ d' ls, swapLoop d A.length (A.length + R.length) = .ok d' ∧ SwapExt d d' ls
      ∧ d'.cod = A ++ x :: R ++ T
      ∧ (∀ {α : Type} (A' R' T' : List α) (x' : α), A'.length = A.length → R'.length = R.length →
          routeWires ls (A' ++ R' ++ x' :: T') = A' ++ x' :: R' ++ T') := by
  unfold swapLoop
  rw [show A.length + R.length - A.length = R.length by omega]
  induction hn : R.length generalizing R T d with
  | zero =>
    have : R = [] := List.eq_nil_of_length_eq_zero hn
    subst this
    refine ⟨d, [], rfl, SwapExt.refl d, by simpa using h, ?_⟩
    intro α A' R' T' x' _ hR
    have : R' = [] := List.eq_nil_of_length_eq_zero hR
    subst this; simp [routeWires]
  | succ n ih =>
    obtain ⟨R0, y, rfl⟩ : ∃ R0 y, R = R0 ++ [y] := by
      rcases List.eq_nil_or_concat R with h0 | ⟨R0, y, h0⟩
      · subst h0; simp at hn
      · exact ⟨R0, y, by simpa using h0⟩
    have hR0 : R0.length = n := by simpa using hn
    rw [List.range'_concat]
    simp only [List.reverse_append, List.reverse_cons, List.reverse_nil, List.nil_append,
      List.singleton_append, List.foldlM_cons, Nat.one_mul]
    have hstep := swapStep_eq d (A ++ R0) T y x (by rw [h]; simp)
    rw [show A.length + n = (A ++ R0).length by simp [hR0], hstep]
    obtain ⟨d', ls, h1, h2, h3, h4⟩ := ih R0 (y :: T)
      ⟨d.dom, A ++ R0 ++ x :: y :: T, d.layers ++ [⟨A ++ R0, SwapSig.swapBox y x, T⟩]⟩ (by simp) hR0
    refine ⟨d', ⟨A ++ R0, SwapSig.swapBox y x, T⟩ :: ls, h1, ?_, by rw [h3]; simp, ?_⟩
    · refine ⟨h2.dom, by rw [h2.layers]; simp, ⟨?_, ?_⟩, ?_⟩
      · rw [h]; simp [Layer.dom, SwapSig.swap_dom]
      · have := h2.chain
        simp only [Layer.cod, SwapSig.swap_cod]
        simpa using this
      · intro l hl
        rcases List.mem_cons.1 hl with rfl | hl
        · exact ⟨y, x, rfl⟩
        · exact h2.swaps l hl
    · intro α A' R' T' x' hA hR
      obtain ⟨R0', y', rfl⟩ : ∃ R0 y, R' = R0 ++ [y] := by
        rcases List.eq_nil_or_concat R' with h0 | ⟨R0, y, h0⟩
        · subst h0; simp at hR
        · exact ⟨R0, y, by simpa using h0⟩
      have hR0' : R0'.length = n := by simpa using hR
      simp only [routeWires]
      have := swapAdj_append (A' ++ R0') T' y' x'
      have e : (A ++ R0).length = (A' ++ R0').length := by simp [hA, hR0, hR0']
      rw [e, show A' ++ (R0' ++ [y']) ++ x' :: T' = A' ++ R0' ++ y' :: x' :: T' by simp, this,
        h4 A' R0' (y' :: T') x' hA hR0']
      simp

end Diagram

/-! ### The permutation loop -/

section Perm

/-- The invariant's list: already placed wires, then the others in increasing order. -/
def placed (n : Nat) (c : List Nat) : List Nat := c ++ (List.range n).filter (fun i => !c.contains i)

theorem countP_split (c : List Nat) (x : Nat) (hx : x ∉ c) :
    c.length = c.countP (fun i => decide (i < x)) + c.countP (fun i => decide (x < i)) := by
  induction c with
  | nil => simp
  | cons a t ih =>
    have hxa : x ≠ a := fun h => hx (by simp [h])
    have hxt : x ∉ t := fun h => hx (by simp [h])
    have := ih hxt
    simp only [List.length_cons, List.countP_cons, decide_eq_true_eq]
    rcases Nat.lt_trichotomy a x with h | h | h
    · rw [if_pos h, if_neg (by omega)]; omega
    · exact absurd h.symm hxa
    · rw [if_neg (by omega), if_pos h]; omega

theorem filter_length_add {α : Type} (q : α → Bool) (l : List α) :
    l.length = (l.filter q).length + (l.filter (fun i => !q i)).length := by
  induction l with
  | nil => rfl
  | cons a t ih => by_cases h : q a <;> simp [List.filter_cons, h] <;> omega

theorem filter_range_length (c : List Nat) (x : Nat) (hc : c.Nodup) :
    ((List.range x).filter (fun i => !c.contains i)).length + c.countP (fun i => decide (i < x)) = x := by
  have h1 : ((List.range x).filter (fun i => c.contains i)).length
      = c.countP (fun i => decide (i < x)) := by
    rw [List.countP_eq_length_filter]
    apply List.Perm.length_eq
    rw [List.perm_iff_count]
    intro a
    have e1 : ((List.range x).filter (fun i => c.contains i)).Nodup := List.nodup_range.filter _
    have e2 : (c.filter (fun i => decide (i < x))).Nodup := hc.filter _
    rw [e1.count, e2.count]
    simp [and_comm]
  have h2 := filter_length_add (fun i => c.contains i) (List.range x)
  rw [List.length_range, h1] at h2
  omega

theorem mapIdx_getElem? (wi : List Nat) (pk j : Nat) :
    (wi.mapIdx (fun i w => if i < pk then w + 1 else w))[j]? =
      (wi[j]?).map (fun w => if j < pk then w + 1 else w) := by
  simp

theorem range_split (n x : Nat) (h : x < n) :
    List.range n = List.range x ++ x :: List.range' (x + 1) (n - x - 1) := by
  rw [List.range_eq_range', List.range_eq_range']
  rw [show n = x + (1 + (n - x - 1)) by omega]
  rw [← List.range'_append]
  simp
  rw [Nat.add_comm 1, List.range'_succ]

/-- Main invariant of the permutation loop (grammar.py:1150-1162). -/
theorem permLoop_eq (n : Nat) (p : List Nat) (hp : p.length = n) (hnd : p.Nodup)
    (hlt : ∀ x ∈ p, x < n) (dom : List O) (hdom : dom.length = n) :
    ∀ (m k : Nat) (wi : List Nat) (d : Diagram O B), k + m ≤ n → wi.length = n →
      (∀ j, j < n → wi[j]? = some (j + (p.take k).countP (fun i => decide (j < i)))) →
      d.cod = (placed n (p.take k)).filterMap (fun i => dom[i]?) →
      (∀ i ∈ p.take k, i ∈ p) →
      ∃ d' ls, Diagram.permLoop p (List.range' k m) wi d = .ok d' ∧ SwapExt d d' ls
        ∧ routeWires ls (placed n (p.take k)) = placed n (p.take (k + m)) := by
  have hfm : ∀ l : List Nat, (∀ i ∈ l, i < n) →
      (l.filterMap (fun i => dom[i]?)).length = l.length := by
    intro l hl
    induction l with
    | nil => rfl
    | cons a t ih =>
      have ha : a < dom.length := by rw [hdom]; exact hl a (by simp)
      simp [List.filterMap_cons, List.getElem?_eq_getElem ha, ih (fun i hi => hl i (by simp [hi]))]
  intro m
  induction m with
  | zero =>
    intro k wi d _ _ _ _ _
    exact ⟨d, [], rfl, SwapExt.refl d, rfl⟩
  | succ m ih =>
    intro k wi d hk hwl hwi hcod hsub
    have hkn : k < n := by omega
    have hpk : p[k]? = some p[k] := List.getElem?_eq_getElem (by omega)
    generalize hx : p[k] = x at hpk
    have hxn : x < n := hlt x (by rw [← hx]; exact List.getElem_mem _)
    have hxc : x ∉ p.take k := by
      intro hmem
      have h1 : p = p.take k ++ p[k] :: p.drop (k + 1) := by
        rw [← List.drop_eq_getElem_cons, List.take_append_drop]
      rw [h1, hx] at hnd
      have := (List.nodup_append.1 hnd).2.2 x hmem x (by simp)
      exact this rfl
    have hcn : (p.take k).Nodup := hnd.sublist (List.take_sublist _ _)
    have hck : (p.take k).length = k := by simp; omega
    have hclt : ∀ i ∈ p.take k, i < n := fun i hi => hlt i (hsub i hi)
    generalize hc : p.take k = c at *
    -- split the unplaced wires around x
    have hcx : (!c.contains x) = true := by simpa using hxc
    have hsplit : (List.range n).filter (fun i => !c.contains i)
        = (List.range x).filter (fun i => !c.contains i) ++
          x :: (List.range' (x + 1) (n - x - 1)).filter (fun i => !c.contains i) := by
      rw [range_split n x hxn, List.filter_append, List.filter_cons, hcx]
      simp
    generalize hR1 : (List.range x).filter (fun i => !c.contains i) = R1 at hsplit
    generalize hR2 : (List.range' (x + 1) (n - x - 1)).filter (fun i => !c.contains i) = R2 at hsplit
    have hpos : x + c.countP (fun i => decide (x < i)) = k + R1.length := by
      have h1 := countP_split c x hxc
      have h2 := filter_range_length c x hcn
      rw [hR1] at h2
      omega
    have hplaced : placed n c = c ++ R1 ++ x :: R2 := by
      unfold placed; rw [hsplit]; simp
    have hR1lt : ∀ i ∈ R1, i < n := by
      intro i hi; rw [← hR1] at hi
      have := (List.mem_filter.1 hi).1
      simp at this; omega
    -- unfold one iteration
    simp only [List.range'_succ, Diagram.permLoop, hpk, hwi x hxn]
    rw [if_neg (by omega)]
    rw [hpos]
    have hdx : dom[x]? = some dom[x] := List.getElem?_eq_getElem (by omega)
    have hcod' : d.cod = c.filterMap (fun i => dom[i]?) ++ R1.filterMap (fun i => dom[i]?)
        ++ dom[x] :: R2.filterMap (fun i => dom[i]?) := by
      rw [hcod, hplaced]; simp [List.filterMap_append, List.filterMap_cons, hdx]
    have hA : (c.filterMap (fun i => dom[i]?)).length = k := by rw [hfm c hclt, hck]
    have hR : (R1.filterMap (fun i => dom[i]?)).length = R1.length := hfm R1 hR1lt
    obtain ⟨d1, ls1, e1, e2, e3, e4⟩ := Diagram.swapLoop_eq _ _ _ _ d hcod'
    rw [hA, hR] at e1
    rw [e1]
    simp only
    -- the next state
    have hc' : p.take (k + 1) = c ++ [x] := by
      rw [List.take_succ_eq_append_getElem (by omega), hc, hx]
    have hplaced' : placed n (c ++ [x]) = c ++ x :: R1 ++ R2 := by
      unfold placed
      have : (List.range n).filter (fun i => !(c ++ [x]).contains i)
          = ((List.range n).filter (fun i => !c.contains i)).filter (fun i => i != x) := by
        rw [List.filter_filter]
        apply List.filter_congr
        intro i _
        by_cases hi : i = x <;> simp [hi, bne]
      rw [this, hsplit, List.filter_append, List.filter_cons]
      simp only [bne_self_eq_false, Bool.false_eq_true, if_false]
      have f1 : R1.filter (fun i => i != x) = R1 := by
        rw [List.filter_eq_self]; intro i hi; rw [← hR1] at hi
        have := (List.mem_filter.1 hi).1; simp at this; simp; omega
      have f2 : R2.filter (fun i => i != x) = R2 := by
        rw [List.filter_eq_self]; intro i hi; rw [← hR2] at hi
        have := (List.mem_filter.1 hi).1; simp [List.mem_range'] at this; simp; omega
      rw [f1, f2]; simp
    obtain ⟨d2, ls2, g1, g2, g3⟩ := ih (k + 1)
      (wi.mapIdx (fun i w => if i < x then w + 1 else w)) d1 (by omega) (by simp [hwl])
      (by
        intro j hj
        rw [mapIdx_getElem?, hwi j hj, hc', List.countP_append]
        simp only [Option.map_some, List.countP_singleton, decide_eq_true_eq]
        split <;> simp <;> omega)
      (by
        rw [e3, hc', hplaced']
        simp [List.filterMap_append, List.filterMap_cons, hdx])
      (fun i hi => List.mem_of_mem_take hi)
    refine ⟨d2, ls1 ++ ls2, g1, e2.trans g2, ?_⟩
    rw [routeWires_append, hplaced, e4 c R1 R2 x (by rw [hA, hck]) (by rw [hR])]
    rw [hc', hplaced'] at g3
    rw [g3]
    congr 2
    omega

end Perm

namespace Diagram

theorem validPerm_iff (n : Nat) (p : List Int) : validPerm n p = true ↔
    p.length = n ∧ (∀ x ∈ p, 0 ≤ x ∧ x < n) ∧ (∀ i : Nat, i < n → (i : Int) ∈ p) := by
  simp [validPerm, and_assoc]

theorem nodup_of_surj (n : Nat) (q : List Nat) (hl : q.length = n) (hs : ∀ i, i < n → i ∈ q) :
    q.Nodup := by
  have hsub : List.range n ⊆ q := by intro i hi; exact hs i (by simpa using hi)
  have hsp : (List.range n).Subperm q := List.nodup_range.subperm hsub
  have hp : (List.range n).Perm q := hsp.perm_of_length_le (by simp [hl])
  exact hp.nodup_iff.1 List.nodup_range


theorem permutation_invalid (dom : List O) (p : List Int) (h : validPerm dom.length p = false) :
    permutation (B := B) dom p = .error .valueError := by
  simp [permutation, h]

theorem placed_nil (n : Nat) : placed n [] = List.range n := by
  simp only [placed, List.nil_append, List.filter_eq_self]
  intro a _; rfl

/-- Once all but at most one wire are placed, the placement is the permutation itself. -/
theorem placed_last (n : Nat) (q : List Nat) (hl : q.length = n) (hnd : q.Nodup)
    (hlt : ∀ x ∈ q, x < n) (hs : ∀ i, i < n → i ∈ q) : placed n (q.take (n - 1)) = q := by
  rcases Nat.eq_zero_or_pos n with rfl | hn
  · have : q = [] := List.eq_nil_of_length_eq_zero hl
    subst this; rfl
  obtain ⟨q0, x, rfl⟩ : ∃ q0 x, q = q0 ++ [x] := by
    rcases List.eq_nil_or_concat q with h0 | ⟨R0, y, h0⟩
    · subst h0; simp at hl; omega
    · exact ⟨R0, y, by simpa using h0⟩
  have hq0 : q0.length = n - 1 := by simp at hl; omega
  rw [show (q0 ++ [x]).take (n - 1) = q0 by rw [← hq0]; simp]
  unfold placed
  congr 1
  have hxn : x < n := hlt x (by simp)
  have hx0 : x ∉ q0 := fun h => (List.nodup_append.1 hnd).2.2 x h x (by simp) rfl
  rw [range_split n x hxn, List.filter_append, List.filter_cons]
  have e1 : (List.range x).filter (fun i => !q0.contains i) = [] := by
    rw [List.filter_eq_nil_iff]; intro a ha
    have ha : a < x := by simpa using ha
    have := hs a (by omega)
    simp at this
    rcases this with h | h
    · simpa using h
    · omega
  have e2 : (List.range' (x+1) (n-x-1)).filter (fun i => !q0.contains i) = [] := by
    rw [List.filter_eq_nil_iff]; intro a ha
    have ha : x < a ∧ a < n := by simp [List.mem_range'] at ha; omega
    have := hs a (by omega)
    simp at this
    rcases this with h | h
    · simpa using h
    · omega
  rw [e1, e2]; simp [hx0]

theorem filterMap_range_getElem (dom : List O) :
    (List.range dom.length).filterMap (fun i => dom[i]?) = dom := by
  have := map_getElem_range dom
  have h2 : (List.range dom.length).filterMap (fun i => dom[i]?)
      = ((List.range dom.length).map (fun i => dom[i]?)).filterMap _root_.id := by
    simp [List.filterMap_map]
  rw [h2, this]; simp

/-- Working form of C11 for natural-number permutations. -/
theorem permutation_spec (dom : List O) (p : List Int) (h : validPerm dom.length p = true) :
    ∃ d : Diagram O B, permutation dom p = .ok d ∧ d.dom = dom ∧ d.WT ∧ OnlySwaps d.layers
      ∧ routeWires d.layers (List.range dom.length) = p.map Int.toNat := by
  obtain ⟨h1, h2, h3⟩ := (validPerm_iff _ _).1 h
  have hs : ∀ i, i < dom.length → i ∈ p.map Int.toNat := by
    intro i hi
    exact List.mem_map.2 ⟨(i : Int), h3 i hi, by simp⟩
  have hl : (p.map Int.toNat).length = dom.length := by simp [h1]
  have hlt : ∀ x ∈ p.map Int.toNat, x < dom.length := by
    intro x hx
    obtain ⟨y, hy, rfl⟩ := List.mem_map.1 hx
    have := h2 y hy; omega
  have hnd := nodup_of_surj _ _ hl hs
  obtain ⟨d, ls, e1, e2, e3⟩ := permLoop_eq (B := B) dom.length (p.map Int.toNat) hl hnd hlt dom rfl
    (dom.length - 1) 0 (List.range dom.length) (Diagram.id dom : Diagram O B) (by omega) (by simp)
    (by intro j hj; simp [List.getElem?_range hj])
    (by simp only [List.take_zero, placed_nil, Diagram.id]; exact (filterMap_range_getElem dom).symm)
    (by simp)
  refine ⟨d, ?_, e2.dom, ?_, ?_, ?_⟩
  · simp only [permutation, h, not_true_eq_false, if_false]
    rw [List.range_eq_range' (n := dom.length - 1)]; exact e1
  · have := e2.chain
    have hd := e2.dom; have hly := e2.layers
    simp only [Diagram.id, List.nil_append] at hd hly this
    unfold WT; rw [hd, hly]; exact this
  · have hly := e2.layers; simp only [Diagram.id, List.nil_append] at hly
    rw [hly]; exact e2.swaps
  · have hly := e2.layers; simp only [Diagram.id, List.nil_append] at hly
    rw [hly]
    rw [Nat.zero_add, placed_last _ _ hl hnd hlt hs] at e3
    rw [List.take_zero, placed_nil] at e3
    exact e3


end Diagram
end Lambeq
