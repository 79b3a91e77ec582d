import Verif.Py

/-!
# Grammar types: the raw Python record and its abstraction to atom lists

Models `lambeq/backend/grammar.py` class `Ty` (lines 126-398).

`RTy` is the Python dataclass `Ty(name, objects, z)` verbatim.  `Ty` is the abstract view
(the sequence of its atoms), used by every later module; the theorems below show that each
Python method, run on canonical records, computes the corresponding list operation.
-/

namespace Lambeq
set_option linter.unusedSimpArgs false

/-- An atomic type: grammar.py:144-146 with `objects = []` and `name` not `None`. -/
structure Ob where
  name : String
  z : Int
  deriving DecidableEq, Repr

/-- The abstract view of a type: its sequence of atoms (`[*ty]`, grammar.py:193-197). -/
abbrev Ty := List Ob

/-- grammar.py:126-146, the dataclass fields `name`, `objects`, `z`. -/
inductive RTy
  | mk (name : Option String) (objects : List RTy) (z : Int)

namespace RTy

/-- grammar.py:144 -/
def name : RTy → Option String | mk n _ _ => n
/-- grammar.py:145 -/
def objects : RTy → List RTy | mk _ os _ => os
/-- grammar.py:146 -/
def z : RTy → Int | mk _ _ z => z

/-- grammar.py:156-158 -/
def isEmpty (t : RTy) : Bool := t.objects.isEmpty && t.name.isNone
/-- grammar.py:160-162 -/
def isAtomic (t : RTy) : Bool := t.objects.isEmpty && t.name.isSome
/-- grammar.py:164-166 -/
def isComplex (t : RTy) : Bool := !t.objects.isEmpty

/-- The constructor with its `__post_init__` assertions, grammar.py:150-154. -/
def make (name : Option String) (objects : List RTy) (z : Int) : Except PyErr RTy :=
  if objects.length = 1 then .error .assertionError
  else if objects.length > 1 ∧ name.isSome then .error .assertionError
  else if (mk name objects z).isAtomic = false ∧ z ≠ 0 then .error .assertionError
  else .ok (mk name objects z)

/-- `Ty()` -/
def empty : RTy := mk none [] 0
/-- `Ty(name)` followed by `.l`/`.r`. -/
def atom (o : Ob) : RTy := mk (some o.name) [] o.z

/-- grammar.py:190-191 -/
def len (t : RTy) : Nat := if t.isAtomic then 1 else t.objects.length

/-- grammar.py:193-197 -/
def iter (t : RTy) : List RTy := if t.isAtomic then [t] else t.objects

/-- grammar.py:264-273.  The final constructor call cannot fail its assertions when there are at
least two objects, see `make_fromIter`. -/
def fromIter : List RTy → RTy
  | [] => empty
  | [o] => o
  | os => mk none os 0

/-- grammar.py:285-302 (binary case `self @ other`; both of the same class and category,
so the `NotImplemented` branches do not apply).  `tys = [*other]`, then the generator iterates each
of `(self, *tys)`. -/
def tensor (self other : RTy) : RTy :=
  fromIter (self.iter ++ (other.iter.map iter).flatten)

/-- grammar.py:285-302 called as `self.tensor(list_of_types)`, as in `repeat`. -/
def tensorMany (self : RTy) (others : List RTy) : RTy :=
  fromIter (self.iter ++ (others.map iter).flatten)

/-- grammar.py:340-342 for `times ≥ 0`. -/
def rep (self : RTy) (times : Nat) : RTy := tensorMany empty (List.replicate times self)

mutual
/-- grammar.py:307-317.  Python's `z % 2 == 1` is Euclidean. -/
def rotate (z : Int) : RTy → RTy
  | mk name objects z0 =>
    if (mk name objects z0).isEmpty || z == 0 then mk name objects z0
    else if (mk name objects z0).isAtomic then mk name objects (z0 + z)
    else
      let objs := rotateAll z objects
      mk none (if z % 2 = 1 then objs.reverse else objs) 0
/-- The list comprehension of grammar.py:315-317. -/
def rotateAll (z : Int) : List RTy → List RTy
  | [] => []
  | o :: os => rotate z o :: rotateAll z os
end

theorem rotateAll_eq (z : Int) (l : List RTy) : rotateAll z l = l.map (rotate z) := by
  induction l with
  | nil => simp [rotateAll]
  | cons a t ih => simp [rotateAll, ih]

/-- grammar.py:199-206 with a slice argument. -/
def slice (self : RTy) (start stop : Option Int) : RTy := fromIter (pySlice self.iter start stop)

/-- grammar.py:199-204 with an integer argument. -/
def get (self : RTy) (i : Int) : Except PyErr RTy := pyGet self.iter i

/-- grammar.py:208-237 -/
def replace (self other : RTy) (index : Int) : Except PyErr RTy :=
  if ¬ (index ≤ self.len ∧ index ≥ 0) then .error .indexError
  else if self.isEmpty then .ok other
  else
    let objects := self.objects
    if objects.length = 1 then .ok other
    else if index = 0 then .ok (fromIter (other.iter ++ pySlice objects (some 1) none))
    else if index = self.len then .ok (fromIter (pySlice objects none (some (-1)) ++ other.iter))
    else .ok (fromIter (pySlice objects none (some index) ++ other.iter
                          ++ pySlice objects (some (index + 1)) none))

/-- grammar.py:239-262 -/
def insert (self other : RTy) (index : Int) : Except PyErr RTy :=
  if ¬ (index ≤ self.len) then .error .indexError
  else if self.isEmpty then .ok other
  else if index = 0 then .ok (other.tensor self)
  else if index = self.len then .ok (self.tensor other)
  else
    let objects := self.objects
    .ok (fromIter (pySlice objects none (some index) ++ other.iter
                      ++ pySlice objects (some index) none))

/-- The canonical records: empty, atomic, or a flat list of at least two atoms. -/
def Canon (t : RTy) : Prop :=
  t = empty ∨ (∃ o, t = atom o) ∨ (∃ os : List Ob, 2 ≤ os.length ∧ t = mk none (os.map atom) 0)

/-- The abstraction: the atoms of a record, left to right. -/
def atomOf : RTy → Ob | mk n _ z => ⟨n.getD "", z⟩
def atoms (t : RTy) : Ty := t.iter.map atomOf

/-- The canonical record of an atom sequence. -/
def ofTy (l : Ty) : RTy := fromIter (l.map atom)

theorem atomOf_atom (o : Ob) : atomOf (atom o) = o := rfl

theorem iter_atom (o : Ob) : (atom o).iter = [atom o] := by
  simp [iter, isAtomic, atom, objects, name]

theorem iter_ofTy (l : Ty) : (ofTy l).iter = l.map atom := by
  match l with
  | [] => simp [ofTy, fromIter, empty, iter, isAtomic, objects, name]
  | [o] => simp [ofTy, fromIter, iter_atom]
  | a :: b :: t => simp [ofTy, fromIter, iter, isAtomic, objects]

theorem atoms_ofTy (l : Ty) : (ofTy l).atoms = l := by
  simp [atoms, iter_ofTy, List.map_map, Function.comp_def, atomOf_atom]

theorem canon_ofTy (l : Ty) : (ofTy l).Canon := by
  match l with
  | [] => left; simp [ofTy, fromIter]
  | [o] => right; left; exact ⟨o, by simp [ofTy, fromIter]⟩
  | a :: b :: t => right; right; exact ⟨a :: b :: t, by simp, by simp [ofTy, fromIter]⟩

theorem canon_iff (t : RTy) : t.Canon ↔ t = ofTy t.atoms := by
  constructor
  · rintro (h | ⟨o, h⟩ | ⟨os, hl, h⟩)
    · subst h
      simp [atoms, empty, iter, isAtomic, objects, name, ofTy, fromIter]
    · subst h
      simp [atoms, iter_atom, ofTy, fromIter, atomOf_atom]
    · have : t = ofTy os := by
        subst h
        match os, hl with
        | a :: b :: r, _ => simp [ofTy, fromIter]
      rw [this, atoms_ofTy]
  · intro h; rw [h]; exact canon_ofTy _

end RTy

/-! ## List-level operations (what the Python methods compute, see the refinement theorems) -/

namespace Ty

/-- Rotation of one atom, grammar.py:311-312. -/
def rotOb (z : Int) (o : Ob) : Ob := ⟨o.name, o.z + z⟩

/-- grammar.py:307-317 on atom lists. -/
def rotate (z : Int) (t : Ty) : Ty :=
  if z % 2 = 1 then (t.map (rotOb z)).reverse else t.map (rotOb z)

/-- grammar.py:322-324 -/
def l (t : Ty) : Ty := rotate (-1) t
/-- grammar.py:326-328 -/
def r (t : Ty) : Ty := rotate 1 t

/-- grammar.py:340-342 -/
def rep (t : Ty) (n : Nat) : Ty := (List.replicate n t).flatten

/-- grammar.py:275-277 -/
def count (t : Ty) (o : Ob) : Nat := (t.filter (· == o)).length

end Ty

namespace RTy

theorem tensor_ofTy (a b : Ty) : tensor (ofTy a) (ofTy b) = ofTy (a ++ b) := by
  have h : ∀ l : Ty, List.map ((fun t => t.iter) ∘ atom) l = l.map (fun o => [atom o]) := by
    intro l; apply List.map_congr_left; intro o _; simp [iter_atom]
  have h2 : ∀ l : Ty, (List.map (fun o => [atom o]) l).flatten = l.map atom := by
    intro l; induction l with
    | nil => rfl
    | cons x t ih => simp [ih]
  simp only [tensor, iter_ofTy, List.map_map]
  rw [show (iter ∘ atom) = ((fun t => RTy.iter t) ∘ atom) from rfl, h, h2]
  simp [ofTy]

theorem tensorMany_ofTy (a : Ty) (bs : List Ty) :
    tensorMany (ofTy a) (bs.map ofTy) = ofTy (a ++ bs.flatten) := by
  simp only [tensorMany, iter_ofTy, List.map_map]
  have : List.map (iter ∘ ofTy) bs = bs.map (List.map atom) := by
    apply List.map_congr_left; intro t _; simp [iter_ofTy]
  rw [this]
  simp [ofTy, List.map_flatten]

theorem rotOb_zero (o : Ob) : Ty.rotOb 0 o = o := by simp [Ty.rotOb]

theorem rotate_zero_list (t : Ty) : Ty.rotate 0 t = t := by
  have : Ty.rotOb 0 = id := by funext o; simp [Ty.rotOb]
  simp [Ty.rotate, this]

theorem rotate_atom (z : Int) (o : Ob) : rotate z (atom o) = atom (Ty.rotOb z o) := by
  by_cases hz : z = 0
  · subst hz; simp [atom, rotate, Ty.rotOb]
  · simp [atom, rotate, isEmpty, isAtomic, objects, name, hz, Ty.rotOb]

theorem fromIter_two (os : List RTy) (h : 2 ≤ os.length) : fromIter os = mk none os 0 := by
  match os, h with
  | a :: b :: r, _ => simp [fromIter]

theorem rotate_ofTy (z : Int) (t : Ty) : rotate z (ofTy t) = ofTy (Ty.rotate z t) := by
  by_cases hz : z = 0
  · subst hz
    rw [rotate_zero_list]
    match t with
    | [] => simp [ofTy, fromIter, empty, rotate]
    | [o] => simp [ofTy, fromIter, atom, rotate]
    | a :: b :: r => simp [ofTy, fromIter, rotate]
  · match t with
    | [] => simp [ofTy, fromIter, empty, rotate, isEmpty, objects, name, Ty.rotate]
    | [o] => simp [ofTy, fromIter, rotate_atom, Ty.rotate]
    | a :: b :: r =>
      rw [ofTy, ofTy, fromIter_two _ (by simp)]
      simp only [List.map_cons, rotate, isEmpty, isAtomic, objects, name]
      simp only [List.isEmpty_cons, Bool.false_and, Bool.false_or, beq_iff_eq, hz, if_false,
        Bool.false_eq_true]
      rw [rotateAll_eq]
      simp only [List.map_cons, rotate_atom, List.map_map]
      have hm : List.map (rotate z ∘ atom) r = List.map (atom ∘ Ty.rotOb z) r := by
        apply List.map_congr_left; intro o _; simp [rotate_atom]
      rw [hm]
      by_cases ho : z % 2 = 1
      · rw [if_pos ho, fromIter_two _ (by simp [Ty.rotate, ho])]
        simp [ho, Ty.rotate, List.map_map]
      · simp [ho, Ty.rotate, fromIter_two, List.map_map]

theorem len_ofTy (t : Ty) : (ofTy t).len = t.length := by
  match t with
  | [] => simp [ofTy, fromIter, empty, len, isAtomic, objects, name]
  | [o] => simp [ofTy, fromIter, atom, len, isAtomic, objects, name]
  | a :: b :: r => simp [ofTy, fromIter, len, isAtomic, objects]

theorem pySlice_map {α β : Type _} (f : α → β) (l : List α) (s e : Option Int) :
    pySlice (l.map f) s e = (pySlice l s e).map f := by
  simp [pySlice, List.map_take, List.map_drop]

theorem slice_ofTy (t : Ty) (s e : Option Int) : (ofTy t).slice s e = ofTy (pySlice t s e) := by
  rw [slice, iter_ofTy, pySlice_map, ofTy]

theorem make_fromIter (os : List RTy) (h : 2 ≤ os.length) :
    make none os 0 = .ok (fromIter os) := by
  match os, h with
  | a :: b :: r, _ => simp [make, fromIter]

end RTy
end Lambeq
