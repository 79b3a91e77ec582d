import Verif.Tensor.NetworkProps
import Mathlib.Algebra.Star.Basic
import Mathlib.Algebra.Star.BigOperators

/-!
# The tensor category

Models `lambeq/backend/tensor.py`: `Dim` (45-115), `Box` (120-290), `Cap` (426-462), `Cup` (466-503), `Swap` (507-536), `Spider` (540-574),
`Daggered` (581-620). A `Dim` is the list of its atomic dimensions (the names of the atoms are the decimal strings of the dimensions;
`int(str(n)) == n` is not modelled). Symbolic data and `lambdify` are not modelled: data are arrays.
-/

namespace Lambeq
open Diagram
set_option linter.unusedSectionVars false
set_option linter.unusedSimpArgs false

/-! ## Dimensions -/

/-- `Dim(*dim)`, tensor.py:58-84. -/
def mkDim (ds : List Int) : List Nat := (ds.filter (fun x => decide (x > 1))).map Int.toNat

/-- `Dim.rotate`, tensor.py:93-97 with grammar.py:307-317. -/
def rotDim (z : Int) (t : List Nat) : List Nat := if z % 2 = 1 then t.reverse else t

/-- `Dim.product`, tensor.py:107-109. -/
def dimProduct (t : List Nat) : Nat := t.prod

/-- **C52.** `Dim` drops the ones: `Dim(*a) @ Dim(*b)` is `Dim(*a, *b)`; inserting ones changes nothing; the product is the product of the
arguments (all at least one); and a `Dim` is determined by its dimensions. -/
theorem C52_dim (a b : List Int) :
    mkDim a ++ mkDim b = mkDim (a ++ b) ∧
    mkDim (a ++ [1] ++ b) = mkDim (a ++ b) ∧
    ((∀ x ∈ a, 1 ≤ x) → (dimProduct (mkDim a) : Int) = a.prod) ∧
    mkDim ((mkDim a).map Int.ofNat) = mkDim a ∧
    (∀ n ∈ mkDim a, 1 < n) := by
  have hnat : ∀ l : List Int, (∀ x ∈ l, 1 ≤ x) → (dimProduct (mkDim l) : Int) = l.prod := by
    intro l h
    induction l with
    | nil => simp [mkDim, dimProduct]
    | cons x l ih =>
      have ih := ih (fun y hy => h y (List.mem_cons_of_mem _ hy))
      have hx := h x (by simp)
      simp only [mkDim, dimProduct, List.prod_cons] at ih ⊢
      by_cases h1 : x > 1
      · simp only [List.filter_cons, h1, decide_true, if_true, List.map_cons, List.prod_cons, Nat.cast_mul, ih]
        rw [Int.toNat_of_nonneg (by omega)]
      · have : x = 1 := by omega
        subst this
        simpa [List.filter_cons] using ih
  refine ⟨by simp [mkDim], by simp [mkDim], hnat a, ?_, ?_⟩
  · induction a with
    | nil => simp [mkDim]
    | cons x a ih =>
      by_cases h1 : x > 1
      · simp only [mkDim, List.filter_cons, h1, decide_true, if_true, List.map_cons] at ih ⊢
        have : (Int.ofNat x.toNat > 1) := by simp; omega
        simp only [this, decide_true, if_true, List.map_cons, List.cons.injEq]
        exact ⟨rfl, ih⟩
      · simpa [mkDim, List.filter_cons, h1] using ih
  · intro n hn
    simp only [mkDim, List.mem_map, List.mem_filter] at hn
    obtain ⟨x, ⟨_, hx⟩, rfl⟩ := hn
    simp at hx
    omega

example : mkDim [2, 1, 3] = [2, 3] ∧ dimProduct (mkDim [2, 1, 3]) = 6 := by decide

/-- **C52 (adjoints).** Taking adjoints keeps the product and the number of wires, and the left and right adjoints are inverse and equal. -/
theorem C52_rotate (t : List Nat) (y z : Int) :
    dimProduct (rotDim z t) = dimProduct t ∧ (rotDim z t).length = t.length ∧ rotDim y (rotDim z t) = rotDim (y + z) t ∧
    rotDim 1 t = rotDim (-1) t ∧ (t.length = 1 → rotDim z t = t) := by
  refine ⟨?_, ?_, ?_, ?_, ?_⟩
  · unfold rotDim dimProduct; split <;> simp [List.prod_reverse]
  · unfold rotDim; split <;> simp
  · unfold rotDim
    by_cases h1 : y % 2 = 1 <;> by_cases h2 : z % 2 = 1
    · rw [if_pos h2, if_pos h1, if_neg (by omega), List.reverse_reverse]
    · rw [if_neg h2, if_pos h1, if_pos (by omega)]
    · rw [if_pos h2, if_neg h1, if_pos (by omega)]
    · rw [if_neg h2, if_neg h1, if_neg (by omega)]
  · rfl
  · intro h
    obtain ⟨a, rfl⟩ := List.length_eq_one_iff.1 h
    unfold rotDim; split <;> rfl

/-- A dimension of zero is dropped like a one, so the product is not the product of the arguments. -/
theorem C52_refuted_zero : ∃ a : List Int, (dimProduct (mkDim a) : Int) ≠ a.prod := ⟨[0, 2], by decide⟩

/-! ## Boxes -/

/-- The boxes of the tensor category with atomic cups, caps, swaps and spiders (the constructors decompose the compound ones). -/
inductive TBox (R : Type)
  | gen (name : String) (dom cod : List Nat) (data : Option (NdArray R)) (z : Int)
  | cup (l r : Nat)
  | cap (l r : Nat)
  | swap (l r : Nat)
  | spider (t m n : Nat)
  | daggered (b : TBox R)
  deriving DecidableEq

namespace TBox
variable {R : Type}

/-- Domain and codomain: tensor.py:164-165, 454 and 495 with grammar.py:1440-1441 and 1567-1568, 530, 567, 600-601. -/
def sig : TBox R → List Nat × List Nat
  | gen _ d c _ _ => (d, c)
  | cup l r => ([l, r], [])
  | cap l r => ([], [l, r])
  | swap l r => ([l, r], [r, l])
  | spider t m n => (List.replicate m t, List.replicate n t)
  | daggered b => (b.sig.2, b.sig.1)

def dom (b : TBox R) : List Nat := b.sig.1
def cod (b : TBox R) : List Nat := b.sig.2

instance : BoxSig (TBox R) Nat := ⟨dom, cod⟩

/-- `np.zeros(p ** 2)` with `arr[0] = arr[-1] = 1`: tensor.py:456-459 and 497-500. -/
def cornerArray [Zero R] [One R] (p : Nat) : NdArray R := ⟨[p * p], ((List.replicate (p * p) 0).set 0 1).set (p * p - 1) 1⟩

variable [CommSemiring R] [StarRing R] [Inhabited R]

/-- `Box._conjugate_array`, tensor.py:196-205. -/
def conjugateArray (dom cod : List Nat) (data : NdArray R) : Except PyErr (NdArray R) :=
  match data.moveAll ((List.range (dom.length + cod.length)).map (fun i : Nat => (dom.length : Int) - i - 1)) with
  | .error e => .error e
  | .ok a => .ok a.conj

/-- `Box._adjoint_array`, tensor.py:185-194, given `self.array`. -/
def adjointArray (dom cod : List Nat) (arr : NdArray R) : Except PyErr (NdArray R) :=
  match arr.moveAll ((List.range (dom.length + cod.length)).map (fun i : Nat =>
      if i < dom.length then (i : Int) + cod.length else (i : Int) - dom.length)) with
  | .error e => .error e
  | .ok a => .ok a.conj

/-- `Box.array` (tensor.py:175-183), `Daggered.array` (614-616), and the tensor of the `CopyNode` of a spider (402-404). Without data the
array is `None` and building the node raises. -/
def array : TBox R → Except PyErr (NdArray R)
  | gen _ d c data z => match data with
    | none => .error .typeError
    | some a =>
      if z % 2 = 1 then
        match conjugateArray d c a with
        | .error e => .error e
        | .ok a => a.reshape (d ++ c)
      else a.reshape (d ++ c)
  | cup l r => (cornerArray l).reshape ([l, r] ++ [])
  | cap l r => (cornerArray l).reshape ([] ++ [l, r])
  | swap _ _ => .error .typeError
  | spider t m n => .ok (copyArray R (m + n) t)
  | daggered b => match array b with
    | .error e => .error e
    | .ok a => adjointArray b.dom b.cod a

/-- `dagger`: tensor.py:207-217, 532-533, 570-571; grammar.py:1495-1499, 1622-1628, 1688-1689 (left and right adjoints of dimensions agree, so the
reversed flag is ignored, tensor.py:436-459). -/
def dagger : TBox R → TBox R
  | gen n d c data z => daggered (gen n d c data z)
  | cup l r => cap l r
  | cap l r => cup l r
  | swap l r => swap r l
  | spider t m n => spider t n m
  | daggered b => b

/-- `rotate`: tensor.py:219-237; grammar.py:1484-1493, 1611-1620, 1684-1686, 1783-1785, 1873-1879. -/
def rotate (z : Int) : TBox R → TBox R
  | gen n d c data z0 => gen n (rotDim z d) (rotDim z c) data ((z0 + z) % 2)
  | cup l r => if z % 2 = 1 then cup r l else cup l r
  | cap l r => if z % 2 = 1 then cap r l else cap l r
  | swap l r => if z % 2 = 1 then swap r l else swap l r
  | spider t m n => spider t m n
  | daggered b => daggered (b.rotate z)

/-- The category as `to_tn` sees it (no box of this category has a method `decompose`). -/
def tnCat : TnCat Nat (TBox R) R where
  dim n := n
  kind
    | swap _ _ => .swap
    | cup _ _ => .cup
    | _ => .other
  array := array
  decompose _ := none

/-- A plain box (or a dagger of one) whose data has as many entries as its types ask for; a rotated box (odd winding number) must have data in the
shape of its types before the rotation, because `_conjugate_array` permutes the axes of the data. -/
def HasData : TBox R → Prop
  | gen _ d c data z => ∃ a, data = some a ∧ a.OK ∧ (z % 2 = 0 → a.flat.length = (d ++ c).prod) ∧ (z % 2 = 1 → a.shape = d.reverse ++ c.reverse)
  | daggered b => b.HasData
  | _ => False

/-- The boxes that can be evaluated: structural boxes that passed their constructor checks, and boxes with data. -/
def Evaluable : TBox R → Prop
  | cup l r => l = r
  | cap l r => l = r ∧ 0 < l
  | swap _ _ => True
  | spider _ _ _ => True
  | b => b.HasData

end TBox
end Lambeq
