import Verif.Py
import Mathlib.Data.List.Basic
import Mathlib.Data.List.Forall2
import Mathlib.Data.List.Perm.Subperm
import Mathlib.Data.List.Nodup
import Mathlib.Algebra.BigOperators.Group.List.Basic
import Mathlib.Tactic.Ring

/-!
# NumPy arrays

The part of NumPy that `lambeq/backend/tensor.py` uses, as documented by NumPy: an array has a shape and its entries in C order
(last index fastest); `reshape` keeps the entries, `moveaxis` permutes the axes. Entries are elements of an arbitrary type; dtypes and
rounding are not modelled.
-/

namespace Lambeq
set_option linter.unusedSectionVars false

/-- An array: its shape and its entries in C order. -/
@[ext] structure NdArray (R : Type) where
  shape : List Nat
  flat : List R
  deriving DecidableEq

/-- The position of a multi-index in C order. -/
def ravel : List Nat → List Nat → Nat
  | _ :: s, i :: is => i * s.prod + ravel s is
  | _, _ => 0

/-- All multi-indices of a shape, in C order. -/
def allIdx : List Nat → List (List Nat)
  | [] => [[]]
  | n :: s => (List.range n).flatMap (fun i => (allIdx s).map (fun is => i :: is))

/-- `i` is a multi-index for the shape `s`. -/
def InShape (s i : List Nat) : Prop := List.Forall₂ (fun n k => k < n) s i

namespace NdArray
variable {R : Type}

/-- The array is well formed: as many entries as the shape says. -/
def OK (a : NdArray R) : Prop := a.flat.length = a.shape.prod

/-- `a[i]` -/
def get [Inhabited R] (a : NdArray R) (i : List Nat) : R := a.flat.getD (ravel a.shape i) default

/-- `a.reshape(shape)` (no `-1`): raises `ValueError` if the sizes differ. -/
def reshape (a : NdArray R) (shape : List Nat) : Except PyErr (NdArray R) :=
  if a.flat.length = shape.prod then .ok ⟨shape, a.flat⟩ else .error .valueError

/-- The array with given shape and entries. -/
def ofFn (shape : List Nat) (f : List Nat → R) : NdArray R := ⟨shape, (allIdx shape).map f⟩

/-- `a.shape[order]` -/
def permute (order : List Nat) (l : List Nat) : List Nat := order.map (fun k => l.getD k 0)

/-- The position of axis `k` in `order`. -/
def axisOf (order : List Nat) (k : Nat) : Nat := order.findIdx (fun x => decide (x = k))

/-- `np.moveaxis(a, range(n), dest)` for an array with exactly `n = len(dest)` axes: axis `i` moves to position `dest[i]` (negative positions
count from the end; repeated or invalid positions raise). For an array with another number of axes the model raises; NumPy raises if there
are fewer than `n`. -/
def moveAll [Inhabited R] (a : NdArray R) (dest : List Int) : Except PyErr (NdArray R) :=
  let n := a.shape.length
  let d := dest.map (fun i : Int => if i < 0 then ((n : Int) + i).toNat else i.toNat)
  if dest.length ≠ n ∨ ¬ d.Nodup ∨ ∃ i ∈ dest, i < -(n : Int) ∨ (n : Int) ≤ i then .error .valueError
  else
    -- position `p` of the result is the axis that was sent to `p`
    let order := (List.range n).map (fun p => axisOf d p)
    -- entry `y` of the result is the entry of `a` whose `i`-th index is `y[dest[i]]`
    .ok (ofFn (permute order a.shape) (fun y => a.get (permute d y)))

/-- `np.conjugate` -/
def conj [Star R] (a : NdArray R) : NdArray R := ⟨a.shape, a.flat.map star⟩

/-! ## Lemmas -/

theorem length_allIdx (s : List Nat) : (allIdx s).length = s.prod := by
  induction s with
  | nil => rfl
  | cons n s ih =>
    simp only [allIdx, List.length_flatMap, List.length_map, ih, List.prod_cons]
    simp

theorem length_flatMap_const {α β : Type} (l : List α) (f : α → List β) (c : Nat) (h : ∀ a ∈ l, (f a).length = c) :
    (l.flatMap f).length = l.length * c := by
  induction l with
  | nil => simp
  | cons a l ih =>
    rw [List.flatMap_cons, List.length_append, ih (fun b hb => h b (List.mem_cons_of_mem _ hb)), h a (by simp), List.length_cons]
    ring

theorem getElem?_flatMap_const {α β : Type} (l : List α) (f : α → List β) (c : Nat) (h : ∀ a ∈ l, (f a).length = c)
    (i j : Nat) (hj : j < c) : (l.flatMap f)[i * c + j]? = (l[i]?).bind (fun a => (f a)[j]?) := by
  induction l generalizing i with
  | nil => simp
  | cons a l ih =>
    rw [List.flatMap_cons]
    cases i with
    | zero =>
      rw [Nat.zero_mul, Nat.zero_add, List.getElem?_append_left (by rw [h a (by simp)]; exact hj)]
      simp
    | succ i =>
      have e : (i + 1) * c + j = (f a).length + (i * c + j) := by rw [h a (by simp)]; ring
      rw [e, List.getElem?_append_right (by omega), Nat.add_sub_cancel_left, ih (fun b hb => h b (List.mem_cons_of_mem _ hb))]
      simp

theorem ravel_lt {s i : List Nat} (h : InShape s i) : ravel s i < s.prod := by
  induction h with
  | nil => simp [ravel]
  | @cons n k s i hk _ ih =>
    simp only [ravel, List.prod_cons]
    calc k * s.prod + ravel s i < k * s.prod + s.prod := by omega
      _ = (k + 1) * s.prod := by ring
      _ ≤ n * s.prod := Nat.mul_le_mul_right _ hk

theorem allIdx_ravel {s i : List Nat} (h : InShape s i) : (allIdx s)[ravel s i]? = some i := by
  induction h with
  | nil => rfl
  | @cons n k s i hk hi ih =>
    simp only [allIdx, ravel]
    rw [getElem?_flatMap_const _ _ s.prod (fun a _ => by simp [length_allIdx]) _ _ (ravel_lt hi)]
    simp [List.getElem?_range hk, ih]

theorem mem_allIdx {s i : List Nat} : i ∈ allIdx s ↔ InShape s i := by
  induction s generalizing i with
  | nil => simp [allIdx, InShape]
  | cons n s ih =>
    simp only [allIdx, List.mem_flatMap, List.mem_range, List.mem_map]
    constructor
    · rintro ⟨k, hk, is, his, rfl⟩
      exact .cons hk (ih.1 his)
    · intro h
      cases h with
      | cons hk hi => exact ⟨_, hk, _, ih.2 hi, rfl⟩

variable [Inhabited R]

theorem get_ofFn (s : List Nat) (f : List Nat → R) {i : List Nat} (h : InShape s i) : (ofFn s f).get i = f i := by
  have := allIdx_ravel h
  simp [ofFn, get, List.getD_eq_getElem?_getD, List.getElem?_map, this]

theorem ofFn_ok (s : List Nat) (f : List Nat → R) : (ofFn s f).OK := by simp [OK, ofFn, length_allIdx]

theorem get_conj [Star R] (a : NdArray R) (ha : a.OK) {i : List Nat} (h : InShape a.shape i) : a.conj.get i = star (a.get i) := by
  have hl : ravel a.shape i < a.flat.length := by rw [ha]; exact ravel_lt h
  simp [conj, get, List.getD_eq_getElem?_getD, List.getElem?_map, List.getElem?_eq_getElem hl]

theorem conj_ok [Star R] {a : NdArray R} (ha : a.OK) : a.conj.OK := by simpa [OK, conj] using ha

/-- Reshaping to the own shape changes nothing. -/
theorem reshape_self (a : NdArray R) (ha : a.OK) : a.reshape a.shape = .ok a := by
  simp [reshape, show a.flat.length = a.shape.prod from ha]

theorem getD_length_lt {l : List Nat} {k : Nat} (h : k < l.length) : l.getD k 0 = l[k] := by
  simp [List.getD_eq_getElem?_getD, List.getElem?_eq_getElem h]

/-- What `moveaxis` of all axes does: the entry of the result at `y` is the entry of `a` whose `i`-th index is `y[dest[i]]`. -/
theorem moveAll_spec (a : NdArray R) (dest : List Nat) (hd : dest.length = a.shape.length) (hn : dest.Nodup)
    (hlt : ∀ k ∈ dest, k < a.shape.length) (dest' : List Int) (hd' : dest'.length = dest.length)
    (hnorm : dest'.map (fun i => if i < 0 then ((a.shape.length : Int) + i).toNat else i.toNat) = dest)
    (hb : ∀ i ∈ dest', -(a.shape.length : Int) ≤ i ∧ i < a.shape.length)
    (shape : List Nat) (hs : shape.length = a.shape.length) (hsh : ∀ i (h : i < dest.length), shape.getD dest[i] 0 = a.shape.getD i 0) :
    a.moveAll dest' = .ok (ofFn shape (fun y => a.get (permute dest y))) := by
  have hord : permute ((List.range a.shape.length).map (fun p => axisOf dest p)) a.shape = shape := by
    have hsurj : ∀ p < a.shape.length, ∃ i, ∃ h : i < dest.length, dest[i] = p := by
      intro p hp
      have hperm : dest.Perm (List.range a.shape.length) := by
        have hsub : dest ⊆ List.range a.shape.length := fun k hk => List.mem_range.2 (hlt k hk)
        exact (List.subperm_of_subset hn hsub).perm_of_length_le (by simp [hd])
      have : p ∈ dest := hperm.symm.subset (List.mem_range.2 hp)
      obtain ⟨i, h, e⟩ := List.getElem_of_mem this
      exact ⟨i, h, e⟩
    refine List.ext_getElem (by simp [permute, hs]) (fun p h1 h2 => ?_)
    simp only [permute, List.getElem_map, List.getElem_range]
    have hp : p < a.shape.length := by simpa [permute] using h1
    obtain ⟨i, hi, e⟩ := hsurj p hp
    have hax : axisOf dest p = i := by
      have hex : ∃ x ∈ dest, decide (x = p) = true := ⟨_, List.getElem_mem hi, by simp [e]⟩
      have hlt' : dest.findIdx (fun x => decide (x = p)) < dest.length := List.findIdx_lt_length_of_exists hex
      have hval := List.findIdx_getElem (w := hlt')
      have : dest[dest.findIdx (fun x => decide (x = p))] = dest[i] := by simpa [e] using hval
      exact (List.Nodup.getElem_inj_iff hn).1 this
    rw [hax, ← hsh i hi, e, getD_length_lt (by rw [hs]; exact hp)]
  unfold moveAll
  simp only [hnorm, hord]
  rw [if_neg]
  rintro (h | h | ⟨i, hi, h⟩)
  · exact h (by rw [hd', hd])
  · exact h hn
  · have := hb i hi; omega

end NdArray
end Lambeq
