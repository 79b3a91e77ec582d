import Verif.Ansatz.CircuitFunctor
import Verif.Tensor.Compound

/-!
# Tensor networks of diagrams

Models the functor of `TensorAnsatz` (`lambeq/ansatz/tensor.py` 38-66): `Functor(tensor, ob=lambda _, ty: ob_map[ty], ar=self._ar)`, with the special boxes of
the tensor category. C83: the tensor network of a diagram evaluates to the contraction of the tensors of its words.

Simplifications: no frames; the symbols of the boxes are replaced by their values at once (`val`) instead of by `lambdify` after the functor was applied (rotating
and daggering a box keep its data).
-/

namespace Lambeq
open Diagram
set_option linter.unusedSectionVars false
set_option linter.unusedSimpArgs false

namespace TBox
noncomputable section
variable {R : Type}

section
variable [CommSemiring R] [StarRing R] [Inhabited R]

/-- tensor.py:48-52 of lambeq/ansatz with `target_category=tensor`. -/
def tFunctor (size : String → Option (List Nat)) (ar : Box → Except PyErr (Diagram Nat (TBox R))) : TFunctor Nat (TBox R) where
  ob n := match size n with
    | none => .error .keyError
    | some d => .ok d
  ar := ar
  rotTy := rotDim
  rotate z d := .ok (drotate z d)
  dagger d := .ok (ddagger d)
  cup := cupDims
  cap := capDims
  swap := swapTys
  spider := spiderDims

/-- `_ar`, tensor.py:54-66 of lambeq/ansatz, on plain boxes and words; `val` gives the value of the symbol. -/
def tensorBox (size : String → Option (List Nat)) (val : String → NdArray R) : Box → Except PyErr (Diagram Nat (TBox R))
  | .gen n d c _ => match Label.tensorAr size n d c with
    | .error e => .error e
    | .ok s => .ok (ofBox (.gen s.name s.dom s.cod (some (val s.data.name)) 0))
  | .word n c _ => match Label.tensorAr size n [] c with
    | .error e => .error e
    | .ok s => .ok (ofBox (.gen s.name s.dom s.cod (some (val s.data.name)) 0))
  | _ => .error .attributeError

/-- The ansatz applied to a diagram: `__call__`, tensor.py:109-115 of lambeq/ansatz. -/
def ansatz (size : String → Option (List Nat)) (val : String → NdArray R) (d : GDiagram) : Except PyErr (Diagram Nat (TBox R)) :=
  (tFunctor size (tensorBox size val)).onDiagram d

end

/-! ## Specification -/

/-- The dimensions of an atomic type of winding number 0, by name. -/
def ndims (size : String → Option (List Nat)) (n : String) : List Nat := (size n).getD []

/-- The dimensions of an atomic type: reversed for adjoints of odd order. -/
def dimsOb (size : String → Option (List Nat)) (o : Ob) : List Nat :=
  if o.z % 2 = 1 then (ndims size o.name).reverse else ndims size o.name

/-- The dimensions of a type. -/
abbrev dimsTy (size : String → Option (List Nat)) (t : Ty) : List Nat := imageTy (dimsOb size) t

/-- The multi-index of a number below the product of the dimensions, in row-major order. -/
def digits : List Nat → Nat → List Nat
  | [], _ => []
  | _ :: s, n => n / s.prod :: digits s (n % s.prod)

/-- How basis index `n` of an atomic type is written on its wires: as a multi-index, from right to left for adjoints of odd order. -/
def encD (size : String → Option (List Nat)) (o : Ob) (n : Nat) : List Nat :=
  if o.z % 2 = 1 then (digits (ndims size o.name) n).reverse else digits (ndims size o.name) n

variable [CommSemiring R] [StarRing R] [Inhabited R]

/-- The entry of the data of a box of the given types. -/
def entry (size : String → Option (List Nat)) (a : NdArray R) (d c : Ty) (x y : List Nat) : R :=
  (⟨dimsTy size d ++ dimsTy size c, a.flat⟩ : NdArray R).get (encTy (encD size) d x ++ encTy (encD size) c y)

/-- The tensor of a box: the value of its symbol. -/
def dataT (size : String → Option (List Nat)) (val : String → NdArray R) : Box → List Nat → List Nat → R
  | .gen n d c _, x, y => entry size (val (Label.label n d c)) d c x y
  | .word n c _, x, y => entry size (val (Label.label n [] c)) [] c x y
  | _, _, _ => 0

/-- The meaning of a diagram: the contraction of the tensors of its boxes. -/
abbrev dataInterp (size : String → Option (List Nat)) (val : String → NdArray R) : Interp Ob Box R :=
  hermInterp (fun n => (ndims size n).prod) (dataT size val)

/-- The data `a` fit a box with types `d` and `c` that is rotated `z` times: there are as many entries as the types ask for, and if the box is conjugated the
data have the shape of the types. -/
def Fits (size : String → Option (List Nat)) (a : NdArray R) (d c : Ty) (z : Int) : Prop :=
  a.OK ∧ a.flat.length = (dimsTy size d ++ dimsTy size c).prod ∧ (z % 2 = 1 → a.shape = dimsTy size d ++ dimsTy size c)

/-- The boxes a tensor functor can handle. Caps must be on types all of whose dimensions are at most two; spiders must have a leg. -/
def TSupported (size : String → Option (List Nat)) (val : String → NdArray R) : Box → Prop
  | .gen n d c z => Fits size (val (Label.label n (Ty.rotate (-z) d) (Ty.rotate (-z) c))) (Ty.rotate (-z) d) (Ty.rotate (-z) c) z
  | .word n c z => Fits size (val (Label.label n [] (Ty.rotate (-z) c))) [] (Ty.rotate (-z) c) z
  | .cup l r rev => (Box.cup l r rev).Valid
  | .cap l r rev => (Box.cap l r rev).Valid ∧ ∀ a ∈ ndims size l.name, a = 1 ∨ a = 2
  | .swap _ _ => True
  | .spider _ n m => 0 < n + m
  | .daggered b => TSupported size val b ∧ (∃ n d c z, b = .gen n d c z ∨ b = .word n c z)

/-! ## Multi-indices -/

theorem digits_inShape : ∀ (s : List Nat) (n : Nat), n < s.prod → InShape s (digits s n)
  | [], _, _ => .nil
  | a :: s, n, h => by
      rw [List.prod_cons] at h
      have hp : 0 < s.prod := Nat.pos_of_ne_zero (fun e => by rw [e] at h; simp at h)
      exact .cons ((Nat.div_lt_iff_lt_mul hp).2 h) (digits_inShape s _ (Nat.mod_lt _ hp))

theorem ravel_digits : ∀ (s : List Nat) (n : Nat), n < s.prod → ravel s (digits s n) = n
  | [], n, h => by simp at h; simp [ravel, h]
  | a :: s, n, h => by
      rw [List.prod_cons] at h
      have hp : 0 < s.prod := Nat.pos_of_ne_zero (fun e => by rw [e] at h; simp at h)
      rw [digits, ravel, ravel_digits s _ (Nat.mod_lt _ hp), Nat.mul_comm]
      exact Nat.div_add_mod n s.prod

theorem digits_ravel : ∀ {s i : List Nat}, InShape s i → digits s (ravel s i) = i
  | _, _, .nil => rfl
  | _, _, .cons (a := a) (b := k) (l₁ := s) (l₂ := is) h1 h2 => by
      have hlt := NdArray.ravel_lt h2
      have hp : 0 < s.prod := by omega
      have hr : ravel (a :: s) (k :: is) = s.prod * k + ravel s is := by rw [ravel, Nat.mul_comm]
      rw [digits, hr, Nat.mul_add_div hp, Nat.div_eq_of_lt hlt, Nat.mul_add_mod, Nat.mod_eq_of_lt hlt, digits_ravel h2, Nat.add_zero]

variable {size : String → Option (List Nat)} {val : String → NdArray R} {ar : Box → Except PyErr (Diagram Nat (TBox R))}

theorem encD_inShape (o : Ob) {n : Nat} (h : n < (ndims size o.name).prod) : InShape (dimsOb size o) (encD size o n) := by
  unfold encD dimsOb
  split
  · exact List.forall₂_reverse_iff.2 (digits_inShape _ _ h)
  · exact digits_inShape _ _ h

theorem tEncodes : Encodes (tFunctor size ar) (tI R) (dataInterp size val) (dimsOb size) (encD size) (fun o => (size o.name).isSome) where
  ob o ho := by
    obtain ⟨k, hk⟩ := Option.isSome_iff_exists.1 ho
    simp only [TFunctor.onOb, tFunctor, hk, dimsOb, ndims, Option.getD_some, rotDim]
    by_cases hz : o.z % 2 = 1
    · rw [if_pos (by omega), if_pos hz]
    · by_cases h0 : o.z ≠ 0
      · rw [if_pos h0, if_neg hz]
      · rw [if_neg h0, if_neg hz]
  maps o _ n hn := idxN.2 (encD_inShape o hn)
  inj o _ n hn m hm e := by
    have key : ∀ {a b : Nat}, a < (ndims size o.name).prod → b < (ndims size o.name).prod → digits (ndims size o.name) a = digits (ndims size o.name) b → a = b := by
      intro a b ha hb e
      rw [← ravel_digits _ a ha, e, ravel_digits _ b hb]
    unfold encD at e
    split at e
    · exact key hn hm (List.reverse_injective e)
    · exact key hn hm e
  surj o _ y hy := by
    rw [idxN] at hy
    unfold dimsOb at hy
    by_cases h : o.z % 2 = 1
    · rw [if_pos h] at hy
      have hy' : InShape (ndims size o.name) y.reverse := by
        have := List.forall₂_reverse_iff.2 hy
        rwa [List.reverse_reverse] at this
      exact ⟨_, NdArray.ravel_lt hy', by rw [encD, if_pos h, digits_ravel hy', List.reverse_reverse]⟩
    · rw [if_neg h] at hy
      exact ⟨_, NdArray.ravel_lt hy, by rw [encD, if_neg h, digits_ravel hy]⟩

theorem encTy_inShape {t : Ty} {x : List Nat} (ht : ∀ o ∈ t, (size o.name).isSome) (hx : x ∈ (dataInterp size val).idx t) :
    InShape (dimsTy size t) (encTy (encD size) t x) :=
  idxN.1 ((tEncodes (ar := fun _ => .error .keyError) (val := val)).mem ht hx)

theorem dimsOb_rot (z : Int) (o : Ob) : dimsOb size (Ty.rotOb z o) = rotDim z (dimsOb size o) := by
  have hn : ndims size (Ty.rotOb z o).name = ndims size o.name := rfl
  unfold dimsOb rotDim
  rw [hn]
  have hz : (Ty.rotOb z o).z % 2 = (o.z + z) % 2 := by simp only [Ty.rotOb]
  rw [hz]
  rcases Int.emod_two_eq_zero_or_one o.z with h | h <;> rcases Int.emod_two_eq_zero_or_one z with h' | h'
  · rw [if_neg (by omega), if_neg (by omega), if_neg (by omega)]
  · rw [if_pos (by omega), if_pos (by omega), if_neg (by omega)]
  · rw [if_pos (by omega), if_neg (by omega), if_pos (by omega)]
  · rw [if_neg (by omega), if_pos (by omega), if_pos (by omega), List.reverse_reverse]

theorem dimsTy_rotate (z : Int) (t : Ty) : dimsTy size (Ty.rotate z t) = rotDim z (dimsTy size t) := by
  unfold Ty.rotate rotDim
  split
  · rename_i hz
    induction t with
    | nil => rfl
    | cons o t ih =>
      rw [List.map_cons, List.reverse_cons, dimsTy, imageTy_append, ← dimsTy, ih]
      have : dimsTy size (o :: t) = dimsOb size o ++ dimsTy size t := rfl
      rw [this, List.reverse_append]
      congr 1
      show dimsOb size (Ty.rotOb z o) ++ [] = _
      rw [dimsOb_rot, rotDim, if_pos hz, List.append_nil]
  · rename_i hz
    induction t with
    | nil => rfl
    | cons o t ih =>
      have h1 : dimsTy size (o :: t) = dimsOb size o ++ dimsTy size t := rfl
      have h2 : dimsTy size ((o :: t).map (Ty.rotOb z)) = dimsOb size (Ty.rotOb z o) ++ dimsTy size (t.map (Ty.rotOb z)) := rfl
      rw [h1, h2, ih, dimsOb_rot, rotDim, if_neg hz]

theorem encD_even {z : Int} (hz : z % 2 = 0) : ∀ (t : Ty) (x : List Nat), encTy (encD size) (Ty.rotate z t) x = encTy (encD size) t x := by
  intro t
  rw [Ty.rotate, if_neg (by omega)]
  induction t with
  | nil => intro x; rfl
  | cons o t ih =>
    intro x
    cases x with
    | nil => rfl
    | cons n x =>
      rw [List.map_cons, encTy, encTy, ih x]
      have : encD size (Ty.rotOb z o) n = encD size o n := by
        have h1 : (Ty.rotOb z o).z % 2 = o.z % 2 := by simp only [Ty.rotOb]; omega
        unfold encD
        rw [show ndims size (Ty.rotOb z o).name = ndims size o.name from rfl]
        exact if_congr (by rw [h1]) rfl rfl
      rw [this]

theorem encD_odd {z : Int} (hz : z % 2 = 1) : ∀ (t : Ty) (x : List Nat), x.length = t.length →
    encTy (encD size) (Ty.rotate z t) x.reverse = (encTy (encD size) t x).reverse := by
  intro t
  rw [Ty.rotate, if_pos hz]
  induction t with
  | nil => intro x hx; obtain rfl := List.length_eq_zero_iff.1 hx; rfl
  | cons o t ih =>
    intro x hx
    cases x with
    | nil => simp at hx
    | cons n x =>
      have hx' : x.length = t.length := by simpa using hx
      rw [List.map_cons, List.reverse_cons, List.reverse_cons, encTy_append _ _ _ _ _ (by simp [hx']), ih x hx', show encTy (encD size) (o :: t) (n :: x) = encD size o n ++ encTy (encD size) t x from rfl, List.reverse_append]
      congr 1
      have : encD size (Ty.rotOb z o) n = (encD size o n).reverse := by
        have h1 : (Ty.rotOb z o).z % 2 = (o.z + 1) % 2 := by simp only [Ty.rotOb]; omega
        unfold encD
        rcases Int.emod_two_eq_zero_or_one o.z with h | h
        · rw [if_pos (by omega), if_neg (by omega)]; rfl
        · rw [if_neg (by omega), if_pos h, List.reverse_reverse]; rfl
      simp [encTy, this]

theorem t_isSome_rotate {z : Int} {t : Ty} (h : ∀ o ∈ t, (size o.name).isSome) : ∀ o ∈ Ty.rotate z t, (size o.name).isSome := by
  intro o ho
  have : o ∈ t.map (Ty.rotOb z) := by
    unfold Ty.rotate at ho
    split at ho
    · exact List.mem_reverse.1 ho
    · exact ho
  obtain ⟨p, hp, rfl⟩ := List.mem_map.1 this
  exact h p hp

/-- The check at the end of the functor passes. -/
theorem t_check {dom cod : Ty} (hd : ∀ o ∈ dom, (size o.name).isSome) (hc : ∀ o ∈ cod, (size o.name).isSome) {p : Diagram Nat (TBox R)}
    (h1 : p.dom = dimsTy size dom) (h2 : p.cod = dimsTy size cod) : (tFunctor size ar).check dom cod p = .ok p := by
  have e := tEncodes (R := R) (size := size) (ar := ar) (val := fun _ => ⟨[], []⟩)
  rw [TFunctor.check, e.onTy hd, e.onTy hc]
  show (if p.cod ≠ dimsTy size cod ∨ p.dom ≠ dimsTy size dom then _ else _) = _
  rw [if_neg (by rw [h1, h2]; simp)]

theorem label_dims {t : Ty} (h : ∀ o ∈ t, (size o.name).isSome) : Label.dims size t = .ok (dimsTy size t) := by
  rw [Label.dims_eq (dim := ndims size) (fun o ho => by obtain ⟨k, hk⟩ := Option.isSome_iff_exists.1 (h o ho); rw [ndims, hk]; rfl)]
  congr 2
  refine List.map_congr_left (fun o _ => ?_)
  unfold dimsOb
  rcases Int.emod_two_eq_zero_or_one o.z with h | h
  · rw [if_pos h, if_neg (by omega)]
  · rw [if_neg (by omega), if_pos h]

theorem tensorAr_ok {n : String} {d c : Ty} (hd : ∀ o ∈ d, (size o.name).isSome) (hc : ∀ o ∈ c, (size o.name).isSome) :
    ∃ s, Label.tensorAr size n d c = .ok s ∧ s.name = n ∧ s.dom = dimsTy size d ∧ s.cod = dimsTy size c ∧ s.data.name = Label.label n d c := by
  obtain ⟨s, h1, h2, h3, _⟩ := Label.C76_tensor size (ndims size) n d c (fun o ho => by
    have : (size o.name).isSome := by
      rcases List.mem_append.1 ho with h | h
      exacts [hd o h, hc o h]
    obtain ⟨k, hk⟩ := Option.isSome_iff_exists.1 this; rw [ndims, hk]; rfl)
  have h := h1
  have m1 : ∀ o ∈ (Label.directed d c).1, (size o.name).isSome := by
    rw [Label.directed_eq]
    intro o ho
    rcases List.mem_append.mp ho with ho | ho
    · exact hc o (List.mem_of_mem_filter ho)
    · exact hd o (List.mem_of_mem_filter ho)
  have m2 : ∀ o ∈ (Label.directed d c).2, (size o.name).isSome := by
    rw [Label.directed_eq]
    intro o ho
    rcases List.mem_append.mp ho with ho | ho
    · exact hc o (List.mem_of_mem_filter ho)
    · exact hd o (List.mem_of_mem_filter ho)
  rw [Label.tensorAr, label_dims m1, QBox.bind_ok, label_dims m2, QBox.bind_ok, label_dims hd, QBox.bind_ok, label_dims hc, QBox.bind_ok] at h
  cases h
  exact ⟨_, h1, h2, rfl, rfl, h3⟩

/-- What the functor makes of a plain box or word: a box with the data of the symbol, whose entries are those of the meaning. -/
def Image (size : String → Option (List Nat)) (val : String → NdArray R) (b : Box) : Prop :=
  ∃ g : TBox R, (tFunctor size (tensorBox size val)).onBox b = .ok (ofBox g) ∧ (∃ n d c a z, g = .gen n d c a z) ∧ g.HasData ∧
    g.dom = dimsTy size b.dom ∧ g.cod = dimsTy size b.cod ∧
    ∀ x ∈ (dataInterp size val).idx b.dom, ∀ y ∈ (dataInterp size val).idx b.cod,
      (tI R).ten g (encTy (encD size) b.dom x) (encTy (encD size) b.cod y) = (dataInterp size val).ten b x y

theorem drotate_ofBox (z : Int) (b : TBox R) : drotate z (ofBox b) = ofBox (b.rotate z) := by
  obtain ⟨h1, h2⟩ := rotate_sig z b
  have hn : rotDim z [] = [] := by simp [rotDim]
  have hl : lrotate z ⟨[], b, []⟩ = ⟨[], b.rotate z, []⟩ := by simp [lrotate, hn]
  rw [drotate, ofBox, ofBox]
  simp only [List.map_cons, List.map_nil, hl]
  congr 1
  · exact h1.symm
  · exact h2.symm

theorem ddagger_ofBox (b : TBox R) : ddagger (ofBox b) = ofBox b.dagger := by
  have w : (ofBox b : Diagram Nat (TBox R)).WT := by simp [Diagram.ofBox, Diagram.WT, Chain, Layer.dom, Layer.cod]
  obtain ⟨h1, h2⟩ := dagger_sig b
  rw [ddagger, daggerWith_eq _ _ w]
  simp only [ofBox, List.reverse_cons, List.reverse_nil, List.nil_append, List.map_cons, List.map_nil]
  congr 1
  · exact h1.symm
  · exact h2.symm

theorem reshape_ok {a : NdArray R} {s : List Nat} (h : a.flat.length = s.prod) : a.reshape s = .ok ⟨s, a.flat⟩ := by rw [NdArray.reshape, if_pos h]

theorem rotDim_back (z : Int) (t : List Nat) : rotDim z (rotDim (-z) t) = t := by
  unfold rotDim
  by_cases h : z % 2 = 1
  · rw [if_pos h, if_pos (by omega), List.reverse_reverse]
  · rw [if_neg h, if_neg (by omega)]

theorem mem_rotate_odd {z : Int} (hz : z % 2 = 1) {t : Ty} {x : List Nat} (h : x ∈ (dataInterp size val).idx t) :
    x.reverse ∈ (dataInterp size val).idx (Ty.rotate (-z) t) := (hermInterp_compact _ _).mem_reverse (z := -z) (by omega) h

/-- The entries of a rotated box. -/
theorem rotated_entries {n : String} {d c : Ty} {z : Int} {a : NdArray R} (h : Fits size a (Ty.rotate (-z) d) (Ty.rotate (-z) c) z)
    (hd : ∀ o ∈ d, (size o.name).isSome) (hc : ∀ o ∈ c, (size o.name).isSome) :
    ((TBox.gen n (dimsTy size (Ty.rotate (-z) d)) (dimsTy size (Ty.rotate (-z) c)) (some a) 0 : TBox R).rotate z).HasData ∧
    ∀ x ∈ (dataInterp size val).idx d, ∀ y ∈ (dataInterp size val).idx c,
      (tI R).ten ((TBox.gen n (dimsTy size (Ty.rotate (-z) d)) (dimsTy size (Ty.rotate (-z) c)) (some a) 0 : TBox R).rotate z)
        (encTy (encD size) d x) (encTy (encD size) c y) =
      if z % 2 = 0 then entry size a (Ty.rotate (-z) d) (Ty.rotate (-z) c) x y else star (entry size a (Ty.rotate (-z) d) (Ty.rotate (-z) c) x.reverse y.reverse) := by
  obtain ⟨ok, hl, hs⟩ := h
  have e1 : rotDim z (dimsTy size (Ty.rotate (-z) d)) = dimsTy size d := by rw [dimsTy_rotate, rotDim_back]
  have e2 : rotDim z (dimsTy size (Ty.rotate (-z) c)) = dimsTy size c := by rw [dimsTy_rotate, rotDim_back]
  have hl' : a.flat.length = (dimsTy size d ++ dimsTy size c).prod := by
    rw [hl, List.prod_append, List.prod_append, dimsTy_rotate, dimsTy_rotate]
    exact congrArg₂ (· * ·) (C52_rotate (dimsTy size d) 0 (-z)).1 (C52_rotate (dimsTy size c) 0 (-z)).1
  constructor
  · refine ⟨a, rfl, ok, fun _ => ?_, fun hz => ?_⟩
    · show _ = (rotDim z _ ++ rotDim z _).prod
      rw [e1, e2, hl']
    · have hz' : z % 2 = 1 := by simpa using hz
      rw [hs hz']
      have : ∀ t : List Nat, (rotDim z t).reverse = t := fun t => by rw [rotDim, if_pos hz', List.reverse_reverse]
      rw [this, this]
  · intro x hx y hy
    rcases Int.emod_two_eq_zero_or_one z with hz | hz
    · rw [if_pos hz, rotate, e1, e2]
      have h1 : ¬ (0 + z) % 2 % 2 = 1 := by omega
      rw [ten_data rfl (a := ⟨dimsTy size d ++ dimsTy size c, a.flat⟩) (by
        simp only [array, h1, if_false]; exact reshape_ok hl'), entry, encD_even (by omega), encD_even (by omega), dimsTy_rotate, dimsTy_rotate, rotDim,
        rotDim, if_neg (by omega), if_neg (by omega)]
    · rw [if_neg (by omega)]
      have hsh := hs hz
      have hcon : (TBox.gen n (dimsTy size (Ty.rotate (-z) d)) (dimsTy size (Ty.rotate (-z) c)) (some a) 0 : TBox R).Concrete :=
        .gen ⟨a, rfl, ok, by rw [if_neg (by simp)]; exact hsh⟩
      have hi := encTy_inShape (val := val) (t_isSome_rotate hd) (mem_rotate_odd hz hx)
      have ho := encTy_inShape (val := val) (t_isSome_rotate hc) (mem_rotate_odd hz hy)
      have := ten_rotate hcon z hz hi ho
      rw [encD_odd (by omega) _ _ ((dataInterp size val).length_of_mem hx), encD_odd (by omega) _ _ ((dataInterp size val).length_of_mem hy),
        List.reverse_reverse, List.reverse_reverse] at this
      rw [this, ten_data rfl (a := a) (by
        simp only [array]; rw [if_neg (by simp), ← hsh]; exact NdArray.reshape_self a ok), entry, encD_odd (by omega) _ _ ((dataInterp size val).length_of_mem hx),
        encD_odd (by omega) _ _ ((dataInterp size val).length_of_mem hy), ← hsh]

theorem gen_img {n : String} {d c : Ty} {z : Int} (h : TSupported size val (.gen n d c z))
    (hd : ∀ o ∈ d, (size o.name).isSome) (hc : ∀ o ∈ c, (size o.name).isSome) : Image size val (.gen n d c z) := by
  obtain ⟨s, s1, s2, s3, s4, s5⟩ := tensorAr_ok (n := n) (t_isSome_rotate (z := -z) hd) (t_isSome_rotate (z := -z) hc)
  obtain ⟨hh, hv⟩ := rotated_entries (n := n) (val := val) h hd hc
  have e1 : rotDim z (dimsTy size (Ty.rotate (-z) d)) = dimsTy size d := by rw [dimsTy_rotate, rotDim_back]
  have e2 : rotDim z (dimsTy size (Ty.rotate (-z) c)) = dimsTy size c := by rw [dimsTy_rotate, rotDim_back]
  set g0 : TBox R := .gen n (dimsTy size (Ty.rotate (-z) d)) (dimsTy size (Ty.rotate (-z) c)) (some (val (Label.label n (Ty.rotate (-z) d) (Ty.rotate (-z) c)))) 0 with hg0
  have har : ∀ z', tensorBox size val (.gen n (Ty.rotate (-z) d) (Ty.rotate (-z) c) z') = .ok (ofBox g0) := by
    intro z'
    simp only [tensorBox, s1, s2, s3, s4, s5, hg0]
  obtain ⟨r1, r2⟩ := rotate_sig z g0
  refine ⟨g0.rotate z, ?_, ⟨_, _, _, _, _, rfl⟩, hh, r1.trans e1, r2.trans e2, fun x hx y hy => ?_⟩
  · have hfin : (tFunctor size (tensorBox size val)).check d c (ofBox (g0.rotate z)) = .ok (ofBox (g0.rotate z)) := t_check hd hc (r1.trans e1) (r2.trans e2)
    rw [TFunctor.onBox]
    by_cases hz : z = 0
    · subst hz
      rw [if_neg (by simp)]
      have h0 := har 0
      simp only [neg_zero, Ty.rotate_zero] at h0
      have h0' : (tFunctor size (tensorBox size val)).ar (.gen n d c 0) = .ok (ofBox g0) := h0
      rw [h0', QBox.bind_ok]
      have : g0.rotate 0 = g0 := by simp [hg0, rotate, rotDim]
      rw [this] at hfin ⊢
      exact hfin
    · rw [if_pos hz]
      have h0 : (tFunctor size (tensorBox size val)).ar (.gen n (Ty.rotate (-z) d) (Ty.rotate (-z) c) (z + -z)) = .ok (ofBox g0) := har (z + -z)
      have h1 : (tFunctor size (tensorBox size val)).check (Ty.rotate (-z) d) (Ty.rotate (-z) c) (ofBox g0) = .ok (ofBox g0) :=
        t_check (t_isSome_rotate hd) (t_isSome_rotate hc) rfl rfl
      have h2 : (tFunctor size (tensorBox size val)).rotate z (ofBox g0) = .ok (ofBox (g0.rotate z)) := by
        show Except.ok (drotate z (ofBox g0)) = _
        rw [drotate_ofBox]
      simp only [h0, QBox.bind_ok, h1, h2]
      exact hfin
  · exact hv x hx y hy

theorem word_img {n : String} {c : Ty} {z : Int} (h : TSupported size val (.word n c z))
    (hc : ∀ o ∈ c, (size o.name).isSome) : Image size val (.word n c z) := by
  have hr : ∀ z, Ty.rotate z ([] : Ty) = [] := fun z => by simp [Ty.rotate]
  obtain ⟨s, s1, s2, s3, s4, s5⟩ := tensorAr_ok (n := n) (d := []) (by simp) (t_isSome_rotate (z := -z) hc)
  have h' : Fits size (val (Label.label n [] (Ty.rotate (-z) c))) (Ty.rotate (-z) []) (Ty.rotate (-z) c) z := by rw [hr]; exact h
  obtain ⟨hh, hv⟩ := rotated_entries (n := n) (d := []) (val := val) h' (by simp) hc
  simp only [hr] at hh hv
  have e2 : rotDim z (dimsTy size (Ty.rotate (-z) c)) = dimsTy size c := by rw [dimsTy_rotate, rotDim_back]
  set g0 : TBox R := .gen n (dimsTy size []) (dimsTy size (Ty.rotate (-z) c)) (some (val (Label.label n [] (Ty.rotate (-z) c)))) 0 with hg0
  have har : ∀ z', tensorBox size val (.word n (Ty.rotate (-z) c) z') = .ok (ofBox g0) := by
    intro z'
    simp only [tensorBox, s1, s2, s3, s4, s5, hg0]
  obtain ⟨r1, r2⟩ := rotate_sig z g0
  have e1 : rotDim z (dimsTy size []) = dimsTy size [] := by simp [dimsTy, imageTy, rotDim]
  refine ⟨g0.rotate z, ?_, ⟨_, _, _, _, _, rfl⟩, hh, r1.trans e1, r2.trans e2, fun x hx y hy => ?_⟩
  · have hfin : (tFunctor size (tensorBox size val)).check [] c (ofBox (g0.rotate z)) = .ok (ofBox (g0.rotate z)) := t_check (by simp) hc (r1.trans e1) (r2.trans e2)
    rw [TFunctor.onBox]
    by_cases hz : z = 0
    · subst hz
      rw [if_neg (by simp)]
      have h0 := har 0
      simp only [neg_zero, Ty.rotate_zero] at h0
      have h0' : (tFunctor size (tensorBox size val)).ar (.word n c 0) = .ok (ofBox g0) := h0
      rw [h0', QBox.bind_ok]
      have : g0.rotate 0 = g0 := by simp [hg0, rotate, rotDim]
      rw [this] at hfin ⊢
      exact hfin
    · rw [if_pos hz]
      have h0 : (tFunctor size (tensorBox size val)).ar (.word n (Ty.rotate (-z) c) (z + -z)) = .ok (ofBox g0) := har (z + -z)
      have h1 : (tFunctor size (tensorBox size val)).check [] (Ty.rotate (-z) c) (ofBox g0) = .ok (ofBox g0) :=
        t_check (by simp) (t_isSome_rotate hc) rfl rfl
      have h2 : (tFunctor size (tensorBox size val)).rotate z (ofBox g0) = .ok (ofBox (g0.rotate z)) := by
        show Except.ok (drotate z (ofBox g0)) = _
        rw [drotate_ofBox]
      simp only [h0, QBox.bind_ok, h1, h2]
      exact hfin
  · exact hv x hx y hy

/-- What `BoxOK` says for this functor. -/
abbrev TBoxOK (size : String → Option (List Nat)) (val : String → NdArray R) (b : Box) : Prop :=
  BoxOK (tFunctor size (tensorBox size val)) (tI R) (dataInterp size val) (dimsOb size) (encD size) Evaluable b

theorem ofBox_wt (b : TBox R) : (ofBox b : Diagram Nat (TBox R)).WT := by simp [Diagram.ofBox, Diagram.WT, Chain, Layer.dom, Layer.cod]

theorem Image.boxOK {b : Box} (h : Image size val b) (hd : ∀ o ∈ b.dom, (size o.name).isSome) (hc : ∀ o ∈ b.cod, (size o.name).isSome) : TBoxOK size val b := by
  obtain ⟨g, e, ⟨n, d, c, a, z, rfl⟩, hdata, h1, h2, hv⟩ := h
  refine ⟨_, e, ofBox_wt _, h1, h2, ?_, fun x hx y hy => ?_⟩
  · intro l hl
    obtain rfl : l = ⟨[], _, []⟩ := by simpa [ofBox] using hl
    exact hdata
  · rw [(tI R).mat_ofBox _ (idxN.2 (by show InShape (TBox.dom _) _; rw [h1]; exact encTy_inShape hd hx))
      (idxN.2 (by show InShape (TBox.cod _) _; rw [h2]; exact encTy_inShape hc hy))]
    exact hv x hx y hy

theorem Image.dagger {b : Box} (h : Image size val b) (hd : ∀ o ∈ b.dom, (size o.name).isSome) (hc : ∀ o ∈ b.cod, (size o.name).isSome) :
    TBoxOK size val (.daggered b) := by
  obtain ⟨g, e, ⟨n, d, c, a, z, rfl⟩, hdata, h1, h2, hv⟩ := h
  obtain ⟨d1, d2⟩ := dagger_sig (TBox.gen n d c a z : TBox R)
  refine ⟨ofBox (TBox.gen n d c a z : TBox R).dagger, ?_, ofBox_wt _, d1.trans h2, d2.trans h1, ?_, fun x hx y hy => ?_⟩
  · rw [TFunctor.onBox, e, QBox.bind_ok]
    have : (tFunctor size (tensorBox size val)).dagger (ofBox (TBox.gen n d c a z : TBox R)) = .ok (ofBox (TBox.gen n d c a z : TBox R).dagger) := by
      show Except.ok (ddagger _) = _
      rw [ddagger_ofBox]
    rw [this, QBox.bind_ok]
    exact t_check hc hd (d1.trans h2) (d2.trans h1)
  · intro l hl
    obtain rfl : l = ⟨[], _, []⟩ := by simpa [ofBox] using hl
    exact hdata
  · have hx' : InShape (TBox.cod (TBox.gen n d c a z : TBox R)) (encTy (encD size) b.cod x) := by rw [h2]; exact encTy_inShape hc hx
    have hy' : InShape (TBox.dom (TBox.gen n d c a z : TBox R)) (encTy (encD size) b.dom y) := by rw [h1]; exact encTy_inShape hd hy
    rw [(tI R).mat_ofBox _ (idxN.2 (by show InShape (TBox.dom _) _; rw [d1]; exact hx')) (idxN.2 (by show InShape (TBox.cod _) _; rw [d2]; exact hy'))]
    show (tI R).ten (TBox.gen n d c a z : TBox R).dagger (encTy (encD size) b.cod x) (encTy (encD size) b.dom y) = star _
    rw [ten_dagger (b := (TBox.gen n d c a z : TBox R)) hdata trivial hy' hx', hv y hy x hx]
    rfl

theorem t_onTy_one {o : Ob} (h : (size o.name).isSome) : (tFunctor size ar).onTy [o] = .ok (dimsOb size o) := by
  rw [(tEncodes (R := R) (val := fun _ => ⟨[], []⟩)).onTy (by simpa using h)]; simp [imageTy]

theorem dimsOb_adjoint {l r : Ob} (hn : r.name = l.name) (hz : (r.z + 1) % 2 = l.z % 2) : dimsOb size r = (dimsOb size l).reverse := by
  unfold dimsOb
  rw [hn]
  rcases Int.emod_two_eq_zero_or_one l.z with h | h
  · rw [if_pos (by omega), if_neg (by omega)]
  · rw [if_neg (by omega), if_pos h, List.reverse_reverse]

/-- The codes of adjoint types are mirror images. -/
theorem encD_adjoint {l r : Ob} (hn : r.name = l.name) (hz : (r.z + 1) % 2 = l.z % 2) {i j : Nat} (hi : i < (ndims size l.name).prod)
    (hj : j < (ndims size r.name).prod) : encD size r j = (encD size l i).reverse ↔ i = j := by
  rw [hn] at hj
  have key : digits (ndims size l.name) j = digits (ndims size l.name) i ↔ i = j :=
    ⟨fun e => by rw [← ravel_digits _ i hi, ← e, ravel_digits _ j hj], fun e => by rw [e]⟩
  unfold encD
  rw [hn]
  rcases Int.emod_two_eq_zero_or_one l.z with h | h
  · rw [if_pos (by omega), if_neg (by omega), List.reverse_inj, key]
  · rw [if_neg (by omega), if_pos (by omega), List.reverse_reverse, key]

theorem t_idx_two {l r : Ob} {x : List Nat} (h : x ∈ (dataInterp size val).idx [l, r]) :
    ∃ i j, x = [i, j] ∧ i < (ndims size l.name).prod ∧ j < (ndims size r.name).prod := by
  rw [Interp.mem_idx] at h
  cases h with
  | @cons _ i _ _ h1 h2 =>
    cases h2 with
    | @cons _ j _ _ h3 h4 =>
      cases h4
      exact ⟨i, j, rfl, h1, h3⟩

theorem t_idx_none {x : List Nat} (h : x ∈ (dataInterp size val).idx ([] : Ty)) : x = [] :=
  List.length_eq_zero_iff.1 ((dataInterp size val).length_of_mem h)

theorem dimsTy_two (l r : Ob) : dimsTy size [l, r] = dimsOb size l ++ dimsOb size r := by simp [dimsTy, imageTy]

theorem t_cup_ok {l r : Ob} {rev : Bool} (h : (Box.cup l r rev).Valid) (hl : (size l.name).isSome) (hr : (size r.name).isSome) :
    TBoxOK size val (.cup l r rev) := by
  obtain ⟨hn, hz⟩ := QBox.cup_names h
  have hadj := dimsOb_adjoint (size := size) hn hz
  obtain ⟨p, e, w, dp, cp, hb, hv⟩ := cupDims_spec (R := R) (dimsOb size l) rev
  have hdom : ∀ o ∈ [l, r], (size o.name).isSome := by simp [hl, hr]
  have hdt : p.dom = dimsTy size [l, r] := by rw [dp, dimsTy_two, hadj]
  refine ⟨p, ?_, w, hdt, cp, ?_, fun x hx y hy => ?_⟩
  · rw [TFunctor.onBox, t_onTy_one hl, QBox.bind_ok, t_onTy_one hr, QBox.bind_ok, hadj]
    have : (tFunctor size (tensorBox size val)).cup (dimsOb size l) (dimsOb size l).reverse rev = .ok p := e
    rw [this, QBox.bind_ok]
    exact t_check hdom (by simp) hdt cp
  · intro q hq
    obtain ⟨a, _, ea⟩ := hb q.box (List.mem_map_of_mem hq)
    rw [ea]; rfl
  · obtain ⟨i, j, rfl, hi, hj⟩ := t_idx_two hx
    obtain rfl := t_idx_none hy
    show (tI R).mat p (encD size l i ++ (encD size r j ++ [])) [] = hermTen _ _ _ _ _
    rw [List.append_nil, hv _ (idxN.2 (encD_inShape l hi)) _ (idxN.2 (by rw [← hadj]; exact encD_inShape r hj)), hermTen]
    refine if_congr ?_ rfl rfl
    rw [encD_adjoint hn hz hi hj]
    simp [eq_comm]

theorem t_cap_ok {l r : Ob} {rev : Bool} (h : (Box.cap l r rev).Valid) (h2 : ∀ a ∈ ndims size l.name, a = 1 ∨ a = 2)
    (hl : (size l.name).isSome) (hr : (size r.name).isSome) : TBoxOK size val (.cap l r rev) := by
  obtain ⟨hn, hz⟩ := QBox.cap_names h
  have hadj := dimsOb_adjoint (size := size) hn hz
  have hsm : ∀ a ∈ dimsOb size l, a = 1 ∨ a = 2 := by
    intro a ha
    refine h2 a ?_
    unfold dimsOb at ha
    split at ha
    · exact List.mem_reverse.1 ha
    · exact ha
  obtain ⟨p, e, w, dp, cp, hb, hv⟩ := capDims_spec (R := R) (dimsOb size l) (fun a ha => by rcases hsm a ha with h | h <;> omega) rev
  have hcod : ∀ o ∈ [l, r], (size o.name).isSome := by simp [hl, hr]
  have hct : p.cod = dimsTy size [l, r] := by rw [cp, dimsTy_two, hadj]
  refine ⟨p, ?_, w, dp, hct, ?_, fun x hx y hy => ?_⟩
  · rw [TFunctor.onBox, t_onTy_one hl, QBox.bind_ok, t_onTy_one hr, QBox.bind_ok, hadj]
    have : (tFunctor size (tensorBox size val)).cap (dimsOb size l) (dimsOb size l).reverse rev = .ok p := e
    rw [this, QBox.bind_ok]
    exact t_check (by simp) hcod dp hct
  · intro q hq
    obtain ⟨a, ha, ea⟩ := hb q.box (List.mem_map_of_mem hq)
    rw [ea]
    exact ⟨rfl, by rcases hsm a ha with h | h <;> omega⟩
  · obtain ⟨i, j, rfl, hi, hj⟩ := t_idx_two hy
    obtain rfl := t_idx_none hx
    show (tI R).mat p [] (encD size l i ++ (encD size r j ++ [])) = hermTen _ _ _ _ _
    rw [List.append_nil, hv _ (idxN.2 (encD_inShape l hi)) _ (idxN.2 (by rw [← hadj]; exact encD_inShape r hj)), hermTen]
    refine if_congr ?_ rfl rfl
    rw [encD_adjoint hn hz hi hj]
    simp [eq_comm]

theorem t_swap_ok (l r : Ob) (hl : (size l.name).isSome) (hr : (size r.name).isSome) : TBoxOK size val (.swap l r) := by
  obtain ⟨p, e, w, dp, cp, hs, hv⟩ := swapTys_mat (B := TBox R) (I := tI R) tnSwaps (dimsOb size l) (dimsOb size r)
  have hdom : ∀ o ∈ [l, r], (size o.name).isSome := by simp [hl, hr]
  have hcod : ∀ o ∈ [r, l], (size o.name).isSome := by simp [hl, hr]
  have hdt : p.dom = dimsTy size [l, r] := by rw [dp, dimsTy_two]
  have hct : p.cod = dimsTy size [r, l] := by rw [cp, dimsTy_two]
  refine ⟨p, ?_, w, hdt, hct, ?_, ?_⟩
  · rw [TFunctor.onBox, t_onTy_one hl, QBox.bind_ok, t_onTy_one hr, QBox.bind_ok]
    have : (tFunctor size (tensorBox size val)).swap (dimsOb size l) (dimsOb size r) = .ok p := e
    rw [this, QBox.bind_ok]
    exact t_check hdom hcod hdt hct
  · intro l hl
    obtain ⟨x, y, h⟩ := hs l hl
    rw [h]
    trivial
  · intro x hx y hy
    obtain ⟨i, j, rfl, hi, hj⟩ := t_idx_two (l := l) (r := r) hx
    obtain ⟨i', j', rfl, hi', hj'⟩ := t_idx_two (l := r) (r := l) hy
    show (tI R).mat p (encD size l i ++ (encD size r j ++ [])) (encD size r i' ++ (encD size l j' ++ [])) = hermTen _ _ _ _ _
    have s1 := encD_inShape (size := size) l hi
    have s2 := encD_inShape (size := size) r hj
    have s3 := encD_inShape (size := size) r hi'
    have s4 := encD_inShape (size := size) l hj'
    rw [List.append_nil, List.append_nil, hv _ (idxN.2 s1) _ (idxN.2 s2) _ (idxN.2 (List.rel_append s3 s4)), hermTen]
    have E := tEncodes (R := R) (size := size) (ar := fun _ => .error .keyError) (val := val)
    refine if_congr ?_ rfl rfl
    constructor
    · intro h
      obtain ⟨h1, h2⟩ := List.append_inj h (by rw [← s3.length_eq, ← s2.length_eq])
      have q1 := E.inj r hr i' hi' j hj h1
      have q2 := E.inj l hl j' hj' i hi h2
      simp [q1, q2]
    · intro h
      simp only [List.reverse_cons, List.reverse_nil, List.nil_append, List.cons_append, List.cons.injEq, and_true] at h
      rw [h.1, h.2]

theorem dimsTy_replicate (n : Nat) (t : Ob) : dimsTy size (List.replicate n t) = (List.replicate n (dimsOb size t)).flatten := by
  simp [dimsTy, imageTy]

theorem encTy_replicate (t : Ob) : ∀ (n : Nat) (x : List Nat), x.length = n → encTy (encD size) (List.replicate n t) x = (x.map (encD size t)).flatten
  | 0, x, h => by obtain rfl := List.length_eq_zero_iff.1 h; rfl
  | n + 1, c :: x, h => by
      rw [List.replicate_succ, encTy, encTy_replicate t n x (by simpa using h)]
      rfl

theorem idx_replicate {t : Ob} {n : Nat} {x : List Nat} (h : x ∈ (dataInterp size val).idx (List.replicate n t)) : ∀ c ∈ x, c < (ndims size t.name).prod := by
  rw [Interp.mem_idx] at h
  intro c hc
  obtain ⟨i, hi, rfl⟩ := List.getElem_of_mem hc
  have := List.Forall₂.get h (i := i) (by rw [h.length_eq]; exact hi) hi
  simp only [List.get_eq_getElem, List.getElem_replicate] at this
  exact this

theorem t_spider_ok {t : Ob} {n m : Nat} (h : 0 < n + m) (ht : (size t.name).isSome) : TBoxOK size val (.spider t n m) := by
  obtain ⟨p, e, w, dp, cp, hb, hv⟩ := spiderDims_spec (R := R) (dimsOb size t) n m
  have hdom : ∀ o ∈ List.replicate n t, (size o.name).isSome := fun o ho => by rw [List.eq_of_mem_replicate ho]; exact ht
  have hcod : ∀ o ∈ List.replicate m t, (size o.name).isSome := fun o ho => by rw [List.eq_of_mem_replicate ho]; exact ht
  have hdt : p.dom = dimsTy size (List.replicate n t) := by rw [dp, dimsTy_replicate]
  have hct : p.cod = dimsTy size (List.replicate m t) := by rw [cp, dimsTy_replicate]
  refine ⟨p, ?_, w, hdt, hct, ?_, fun x hx y hy => ?_⟩
  · rw [TFunctor.onBox, t_onTy_one ht, QBox.bind_ok]
    have : (tFunctor size (tensorBox size val)).spider (dimsOb size t) n m = .ok p := e
    rw [this, QBox.bind_ok]
    exact t_check hdom hcod hdt hct
  · intro l hl
    rcases hb l.box (List.mem_map_of_mem hl) with ⟨a, n', m', e⟩ | ⟨x, y, e⟩ <;> rw [e] <;> trivial
  · have lx := (dataInterp size val).length_of_mem hx
    have ly := (dataInterp size val).length_of_mem hy
    simp only [BoxSig.dom, BoxSig.cod, Box.dom, Box.cod, List.length_replicate] at lx ly
    have bx := idx_replicate hx
    have bz := idx_replicate hy
    have hrow : ∀ r ∈ x.map (encD size t) ++ y.map (encD size t), r ∈ (tI R).idx (dimsOb size t) := by
      intro r hr
      rw [← List.map_append] at hr
      obtain ⟨c, hc, rfl⟩ := List.mem_map.1 hr
      refine idxN.2 (encD_inShape t ?_)
      rcases List.mem_append.1 hc with hc | hc
      exacts [bx c hc, bz c hc]
    show (tI R).mat p (encTy (encD size) (List.replicate n t) x) (encTy (encD size) (List.replicate m t) y) = hermTen _ _ _ _ _
    rw [encTy_replicate t n x lx, encTy_replicate t m y ly, hv _ _ (by simp [lx]) (by simp [ly]) hrow, hermTen]
    have hlt : ∀ c ∈ x ++ y, c < (ndims size t.name).prod := fun c hc => by
      rcases List.mem_append.1 hc with hc | hc
      exacts [bx c hc, bz c hc]
    have E := tEncodes (R := R) (size := size) (ar := fun _ => .error .keyError) (val := val)
    obtain ⟨c0, hc0⟩ : ∃ c, c ∈ x ++ y := by
      cases hxy : x ++ y with
      | nil => have := congrArg List.length hxy; simp only [List.length_append, List.length_nil] at this; omega
      | cons a l => exact ⟨a, by simp⟩
    rw [Finset.sum_eq_single c0]
    · refine if_congr ?_ rfl rfl
      rw [← List.map_append]
      constructor
      · intro h c hc
        exact E.inj t ht c (hlt c hc) c0 (hlt c0 hc0) (h _ (List.mem_map_of_mem hc) _ (List.mem_map_of_mem hc0))
      · intro h r hr r' hr'
        obtain ⟨c, hc, rfl⟩ := List.mem_map.1 hr
        obtain ⟨c', hc', rfl⟩ := List.mem_map.1 hr'
        rw [h c hc, h c' hc']
    · intro b _ hb
      rw [if_neg (fun h => hb (h c0 hc0).symm)]
    · intro h; exact absurd (Finset.mem_range.2 (hlt c0 hc0)) h

/-- Every supported box. -/
theorem t_supported_ok {b : Box} (h : TSupported size val b) (hd : ∀ o ∈ b.dom, (size o.name).isSome) (hc : ∀ o ∈ b.cod, (size o.name).isSome) :
    TBoxOK size val b := by
  cases b with
  | gen n d c z => exact (gen_img h hd hc).boxOK hd hc
  | word n c z => exact (word_img h hc).boxOK hd hc
  | cup l r rev => exact t_cup_ok h (hd l (by simp [Box.dom])) (hd r (by simp [Box.dom]))
  | cap l r rev => exact t_cap_ok h.1 h.2 (hc l (by simp [Box.cod])) (hc r (by simp [Box.cod]))
  | swap l r => exact t_swap_ok l r (hd l (by simp [Box.dom])) (hd r (by simp [Box.dom]))
  | spider t n m =>
    refine t_spider_ok h ?_
    have h' : 0 < n + m := h
    by_cases hn : 0 < n
    · exact hd t (List.mem_replicate.2 ⟨by omega, rfl⟩)
    · exact hc t (List.mem_replicate.2 ⟨by omega, rfl⟩)
  | daggered b =>
    obtain ⟨h, n, d, c, z, rfl | rfl⟩ := h
    · exact (gen_img h hc hd).dagger hc hd
    · exact (word_img h hd).dagger hc hd


/-! ## C83 -/

/-- All atomic types of the diagram have dimensions and all its boxes are supported. -/
structure TDrawable (size : String → Option (List Nat)) (val : String → NdArray R) (d : GDiagram) : Prop where
  wt : d.WT
  dom : ∀ o ∈ d.dom, (size o.name).isSome
  boxes : ∀ b ∈ d.boxes, (∀ o ∈ b.dom ++ b.cod, (size o.name).isSome) ∧ TSupported size val b

theorem TDrawable.cod {d : GDiagram} (h : TDrawable size val d) : ∀ o ∈ d.cod, (size o.name).isSome :=
  (QBox.sized_chain d.layers d.dom d.cod h.wt h.dom (fun l hl => (h.boxes l.box (List.mem_map_of_mem hl)).1)).2

/-- **C83.** The tensor ansatz maps a well-typed diagram of supported boxes to a well-typed tensor diagram with the dimensions of the types, which can be
evaluated, and its value is the contraction of the tensors of the boxes: basis index `n` of a type is a multi-index of its wires in row-major order. -/
theorem C83_functor_partial (d : GDiagram) (h : TDrawable size val d) :
    ∃ c F, ansatz size val d = .ok c ∧ c.WT ∧ c.dom = dimsTy size d.dom ∧ c.cod = dimsTy size d.cod ∧ tensorEval c = .ok F ∧
      ∀ x ∈ (dataInterp size val).idx d.dom, ∀ y ∈ (dataInterp size val).idx d.cod,
        F (encTy (encD size) d.dom x ++ encTy (encD size) d.cod y) = (dataInterp size val).mat d x y := by
  have hs := QBox.sized_chain d.layers d.dom d.cod h.wt h.dom (fun l hl => (h.boxes l.box (List.mem_map_of_mem hl)).1)
  obtain ⟨hS, c, e, wc, dc, cc, hP, hv⟩ := onDiagram_ok (P := Evaluable) (tEncodes (size := size) (val := val) (ar := tensorBox size val)) h.wt h.dom
    (fun l hl => by
      obtain ⟨h1, h2⟩ := h.boxes l.box (List.mem_map_of_mem hl)
      exact ⟨(hs.1 l hl).1, (hs.1 l hl).2, t_supported_ok h2 (fun o ho => h1 o (List.mem_append_left _ ho)) (fun o ho => h1 o (List.mem_append_right _ ho))⟩)
  obtain ⟨F, f1, f2⟩ := tensorEval_spec (d := c) ⟨wc, hP⟩
  refine ⟨c, F, e, wc, dc, cc, f1, fun x hx y hy => ?_⟩
  rw [f2 _ _ (by rw [dc]; exact encTy_inShape h.dom hx) (by rw [cc]; exact encTy_inShape hS hy)]
  exact hv x hx y hy

/-- Every multi-index of the wires of a type is the code of a basis index of the type. -/
theorem encD_surj {t : Ty} (ht : ∀ o ∈ t, (size o.name).isSome) {u : List Nat} (hu : InShape (dimsTy size t) u) :
    ∃ x ∈ (dataInterp size val).idx t, encTy (encD size) t x = u :=
  (tEncodes (R := R) (size := size) (val := val) (ar := fun _ => .error .keyError)).surj_ty ht (idxN.2 hu)

/-- The two diagrams have tensor networks of the same type with the same value. -/
def SameTensors (size : String → Option (List Nat)) (val : String → NdArray R) (d d' : GDiagram) : Prop :=
  ∃ c c' F F', ansatz size val d = .ok c ∧ ansatz size val d' = .ok c' ∧ c.dom = c'.dom ∧ c.cod = c'.cod ∧
    tensorEval c = .ok F ∧ tensorEval c' = .ok F' ∧ ∀ u v, InShape c.dom u → InShape c.cod v → F (u ++ v) = F' (u ++ v)

/-- **C83 (equal meanings).** Diagrams with the same meaning have tensor networks with the same value. -/
theorem C83_same_meaning (d d' : GDiagram) (hd : TDrawable size val d) (hd' : TDrawable size val d') (h : (dataInterp size val).SameMap d d') :
    SameTensors size val d d' := by
  obtain ⟨e1, e2, h⟩ := h
  obtain ⟨c, F, h1, h2, h3, h4, h5, h6⟩ := C83_functor_partial d hd
  obtain ⟨c', F', k1, k2, k3, k4, k5, k6⟩ := C83_functor_partial d' hd'
  refine ⟨c, c', F, F', h1, k1, by rw [h3, k3, e1], by rw [h4, k4, e2], h5, k5, fun u v hu hv => ?_⟩
  rw [h3] at hu
  rw [h4] at hv
  obtain ⟨x, hx, rfl⟩ := encD_surj (val := val) hd.dom hu
  obtain ⟨y, hy, rfl⟩ := encD_surj (val := val) hd.cod hv
  rw [h6 x hx y hy, h x hx y hy, e1, e2, k6 x (e1 ▸ hx) y (e2 ▸ hy)]

/-- **C83 (snake removal).** If all caps are on types of dimensions at most two, removing snakes before applying the ansatz does not change the value. -/
theorem C83_remove_snakes_partial (d : GDiagram) (rev : Bool) (hd : TDrawable size val d) (hv : d.Valid) (ho : GDiagram.OneOrientation d rev) :
    ∃ d', GDiagram.removeSnakes d = .ok d' ∧ SameTensors size val d d' := by
  obtain ⟨d', pairs, h1, h2, h3, h4, _, h6, _, h8⟩ := GDiagram.C25_remove_snakes_partial d rev hd.wt hv ho
  exact ⟨d', h1, C83_same_meaning d d' hd ⟨h2, h3 ▸ hd.dom, fun b hb => hd.boxes b (h6.mem_iff.2 (List.mem_append_left _ hb))⟩
    (h8 _ (hermInterp_snakeEqs _ _))⟩

/-- **C83 (normal form).** The same for `normal_form`, whenever it returns a diagram. -/
theorem C83_normal_form_partial (d : GDiagram) (left rev : Bool) (hd : TDrawable size val d) (hv : d.Valid) (ho : GDiagram.OneOrientation d rev) :
    ∃ N, ∀ n, N ≤ n → GDiagram.normalForm n left d = some (.error .notImplementedError) ∨
      ∃ d', GDiagram.normalForm n left d = some (.ok d') ∧ SameTensors size val d d' := by
  obtain ⟨N, hN⟩ := GDiagram.C26_normal_form_partial d left rev hd.wt hv ho
  refine ⟨N, fun n hn => (hN n hn).imp id ?_⟩
  rintro ⟨d', pairs, h1, h2, h3, h4, _, h6, _, h8⟩
  exact ⟨d', h1, C83_same_meaning d d' hd ⟨h2, h3 ▸ hd.dom, fun b hb => hd.boxes b (h6.mem_iff.2 (List.mem_append_left _ hb))⟩
    (h8 _ (hermInterp_snakeEqs _ _))⟩

/-- **C83 (unknown types).** A type that is not in `ob_map` raises `KeyError`. -/
theorem C83_unknown_type (d : GDiagram) (pre post : Ty) (o : Ob) (e : d.dom = pre ++ o :: post) (hp : ∀ p ∈ pre, (size p.name).isSome)
    (h : size o.name = none) : ansatz size val d = .error .keyError := by
  have : (tFunctor size (tensorBox size val)).onTy d.dom = .error .keyError := by
    rw [e]
    clear e
    induction pre with
    | nil => simp only [List.nil_append, TFunctor.onTy, TFunctor.onOb, tFunctor, h]
    | cons p pre ih =>
      obtain ⟨k, hk⟩ := Option.isSome_iff_exists.1 (hp p (by simp))
      have ho : ∃ b, (tFunctor size (tensorBox size val)).onOb p = .ok b := by simp only [TFunctor.onOb, tFunctor, hk]; exact ⟨_, rfl⟩
      obtain ⟨b, hb⟩ := ho
      rw [List.cons_append, TFunctor.onTy, hb, ih (fun q hq => hp q (by simp [hq]))]
  rw [ansatz, TFunctor.onDiagram, this]
  rfl

/-- Supported whatever the winding number: the data have the shape of the types. -/
def TStrong (size : String → Option (List Nat)) (val : String → NdArray R) : Box → Prop
  | .gen n d c z => Fits size (val (Label.label n (Ty.rotate (-z) d) (Ty.rotate (-z) c))) (Ty.rotate (-z) d) (Ty.rotate (-z) c) 1
  | .word n c z => Fits size (val (Label.label n [] (Ty.rotate (-z) c))) [] (Ty.rotate (-z) c) 1
  | .cup l r rev => (Box.cup l r rev).Valid
  | .cap l r rev => (Box.cap l r rev).Valid ∧ ∀ a ∈ ndims size l.name, a = 1 ∨ a = 2
  | .swap _ _ => True
  | .spider _ n m => 0 < n + m
  | .daggered b => TStrong size val b ∧ (∃ n d c z, b = .gen n d c z ∨ b = .word n c z)

theorem Fits.any {a : NdArray R} {d c : Ty} (h : Fits size a d c 1) (z : Int) : Fits size a d c z := ⟨h.1, h.2.1, fun _ => h.2.2 rfl⟩

theorem TStrong.supported : ∀ {b : Box}, TStrong size val b → TSupported size val b
  | .gen _ _ _ z, h => Fits.any h z
  | .word _ _ z, h => Fits.any h z
  | .cup _ _ _, h => h
  | .cap _ _ _, h => h
  | .swap _ _, _ => trivial
  | .spider _ _ _, h => h
  | .daggered _, h => ⟨TStrong.supported h.1, h.2⟩

theorem TStrong.simple {b : Box} (h : TStrong size val b) : b.Simple := by
  cases b with
  | daggered c =>
    obtain ⟨_, n, d, c', z, rfl | rfl⟩ := h <;> trivial
  | _ => trivial

theorem strong_origin {b : Box} (hb : DRewrite.isBend b = false) (hs : b.Simple) : TStrong size val b ↔ TStrong size val (DRewrite.origin b) := by
  have key : ∀ b : Box, DRewrite.isBend b = false → (∀ c, b ≠ .daggered c) → (TStrong size val b ↔ TStrong size val (DRewrite.origin b)) := by
    intro b hb hn
    cases b with
    | gen n d c z => simp only [DRewrite.origin, TStrong, Int.neg_zero, Ty.rotate_zero]
    | word n c z => simp only [DRewrite.origin, TStrong, Int.neg_zero, Ty.rotate_zero]
    | cup _ _ _ => simp [DRewrite.isBend] at hb
    | cap _ _ _ => simp [DRewrite.isBend] at hb
    | swap l r => simp only [DRewrite.origin]; split <;> exact Iff.rfl
    | spider t n m =>
      simp only [DRewrite.origin, TStrong]
      omega
    | daggered c => exact absurd rfl (hn c)
  cases b with
  | daggered c =>
    have hc : ∃ n d c' z, c = .gen n d c' z ∨ c = .word n c' z := by
      cases c with
      | gen n d c z => exact ⟨n, d, c, z, .inl rfl⟩
      | word n c z => exact ⟨n, [], c, z, .inr rfl⟩
      | _ => exact absurd hs (by simp [Box.Simple])
    show TStrong size val c ∧ _ ↔ TStrong size val (DRewrite.origin c)
    rw [← key c hb (by obtain ⟨n, d, c', z, rfl | rfl⟩ := hc <;> simp)]
    exact ⟨fun h => h.1, fun h => ⟨h, hc⟩⟩
  | _ => exact key _ hb (by simp)

/-- **C83 (removing cups).** If the data of the words have the shapes of their types, applying `RemoveCupsRewriter` before the ansatz does not change the value,
whenever it returns a diagram all of whose caps are on types of dimensions at most two; it does return one if the diagram has at most one cup or cap. -/
theorem C83_remove_cups_partial (d : GDiagram) (hd : d.WT) (hdom : ∀ o ∈ d.dom, (size o.name).isSome)
    (hb : ∀ b ∈ d.boxes, (∀ o ∈ b.dom ++ b.cod, (size o.name).isSome) ∧ TStrong size val b)
    (hv : d.Valid) (ht : ∀ b ∈ d.boxes, DRewrite.baseName b ≠ "**CUP**") :
    (∀ r, DRewrite.removeCups d = .ok r → (∀ x y rev, .cap x y rev ∈ r.boxes → ∀ a ∈ ndims size x.name, a = 1 ∨ a = 2) → SameTensors size val d r) ∧
      (DRewrite.bends d.boxes ≤ 1 → ∃ r, DRewrite.removeCups d = .ok r) := by
  obtain ⟨h, h'⟩ := DRewrite.C57_remove_cups_partial d hd hv ht
  refine ⟨fun r hr hcap => ?_, h'⟩
  obtain ⟨r1, r2, r3, r4, r5, r6, r7, r8, r9, _⟩ := h r hr
  have hnm := r8 (fun n => (size n).isSome) (fun b hb' => ⟨(hb b hb').2.simple, (hb b hb').1⟩)
  refine C83_same_meaning d r ⟨hd, hdom, fun b hb' => ⟨(hb b hb').1, (hb b hb').2.supported⟩⟩
    ⟨r1, r3 ▸ hdom, fun b hb' => ⟨(hnm b hb').2, ?_⟩⟩ (r9 _ (hermInterp_compact _ _))
  have hs := (hnm b hb').1
  by_cases hbe : DRewrite.isBend b = true
  · obtain ⟨l, hl, rfl⟩ := List.mem_map.1 hb'
    have hv := r2 l hl
    cases hlb : l.box with
    | cup x y rev => rw [hlb] at hv; exact hv
    | cap x y rev => rw [hlb] at hv hb'; exact ⟨hv, hcap x y rev hb'⟩
    | daggered c =>
      rw [hlb] at hs hbe
      cases c with
      | gen _ _ _ _ => simp [DRewrite.isBend] at hbe
      | word _ _ _ => simp [DRewrite.isBend] at hbe
      | _ => exact absurd hs (by simp [Box.Simple])
    | _ => rw [hlb] at hbe; simp [DRewrite.isBend] at hbe
  · have hbe : DRewrite.isBend b = false := by simpa using hbe
    refine TStrong.supported ?_
    rw [strong_origin hbe hs]
    have hm : DRewrite.origin b ∈ DRewrite.names r.boxes := List.mem_map.2 ⟨b, List.mem_filter.2 ⟨hb', by simp [hbe]⟩, rfl⟩
    obtain ⟨b', hb'', e⟩ := List.mem_map.1 (r6.mem_iff.1 hm)
    obtain ⟨k1, k2⟩ := List.mem_filter.1 hb''
    rw [← e, ← strong_origin (by simpa using k2) (hb b' k1).2.simple]
    exact (hb b' k1).2

/-! ## Counterexamples -/

/-- Sizes for the counterexamples: nouns have dimension three, sentences two. -/
def demoSize : String → Option (List Nat) := fun n => if n = "n" then some [3] else if n = "s" then some [2] else none

/-- `Id(n) @ Cap(n.r, n) >> Cup(n, n.r) @ Id(n)`. -/
def demoSnake : GDiagram :=
  ⟨[⟨"n", 0⟩], [⟨"n", 0⟩], [⟨[⟨"n", 0⟩], .cap ⟨"n", 1⟩ ⟨"n", 0⟩ false, []⟩, ⟨[], .cup ⟨"n", 0⟩ ⟨"n", 1⟩ false, [⟨"n", 0⟩]⟩]⟩

/-- **C83 (refuted for caps).** A snake on a type of dimension three evaluates to something else than the wire snake removal replaces it by. -/
theorem C83_refuted_snake (val : String → NdArray ℤ) :
    demoSnake.WT ∧ demoSnake.Valid ∧ GDiagram.removeSnakes demoSnake = .ok (Diagram.id [⟨"n", 0⟩]) ∧
      ∃ c c' F F', ansatz demoSize val demoSnake = .ok c ∧ ansatz demoSize val (Diagram.id [⟨"n", 0⟩]) = .ok c' ∧ tensorEval c = .ok F ∧
        tensorEval c' = .ok F' ∧ F [1, 1] = 0 ∧ F' [1, 1] = 1 := by
  obtain ⟨k1, k2⟩ := snake_ok (R := ℤ) 3 (by omega)
  obtain ⟨F, hF⟩ := C67_eval_total k1
  obtain ⟨G, hG⟩ := C67_eval_total k2
  obtain ⟨D, hD⟩ := C67_eval_total (EvalOK.ofId (R := ℤ) [3])
  refine ⟨by decide, ?_, by decide +kernel, snakeL ℤ 3, Diagram.id [3], F, D, by rfl, by rfl, hF, hD, ?_, ?_⟩
  · intro l hl
    simp only [demoSnake, List.mem_cons, List.not_mem_nil, or_false] at hl
    rcases hl with rfl | rfl
    · show Box.capAdjoint _ _ _ = true; decide
    · show Box.cupAdjoint _ _ _ = true; decide
  · rw [(eval_snakes 3 (by omega) hF hG 1 1 (by omega) (by omega)).1, if_neg (by omega)]
  · have := C67_eval_id [3] hD [1] [1] (.one (by omega)) (.one (by omega))
    simpa using this

/-- **C83 (refuted for spiders without legs).** A spider without legs on a type of dimension three should be the number three (the trace of the wire);
it evaluates to one. -/
theorem C83_refuted_spider (val : String → NdArray ℤ) :
    (dataInterp demoSize val).mat (ofBox (.spider ⟨"n", 0⟩ 0 0)) [] [] = 3 ∧
      ∃ c F, ansatz demoSize val (ofBox (.spider ⟨"n", 0⟩ 0 0)) = .ok c ∧ tensorEval c = .ok F ∧ F [] = 1 := by
  constructor
  · rw [(dataInterp demoSize val).mat_ofBox _ (by simp [BoxSig.dom, Box.dom, Interp.idx]) (by simp [BoxSig.cod, Box.cod, Interp.idx])]
    show ∑ b ∈ Finset.range ((ndims demoSize "n").prod), (if ∀ c ∈ ([] : List Nat) ++ [], c = b then (1 : ℤ) else 0) = 3
    have : (ndims demoSize "n").prod = 3 := by simp [ndims, demoSize]
    rw [this]
    simp
  · have hE : EvalOK (ofBox (.spider 3 0 0) : Diagram Nat (TBox ℤ)) := EvalOK.ofBox trivial
    obtain ⟨F, h1, h2⟩ := tensorEval_spec hE
    refine ⟨_, F, by rfl, h1, ?_⟩
    have := h2 [] [] .nil .nil
    rw [List.append_nil] at this
    rw [this, (tI ℤ).mat_ofBox _ (by simp [BoxSig.dom, TBox.dom, sig, Interp.idx]) (by simp [BoxSig.cod, TBox.cod, sig, Interp.idx])]
    rfl

/-- **C83 (refuted for flat data).** The weights of a `PytorchModel` are flat. A word with such a weight evaluates, but its adjoint, as left behind by
removing cups, raises. -/
theorem C83_refuted_flat (a : NdArray ℤ) (ha : a.OK) (hs : a.shape = [6]) :
    (∃ c F, ansatz demoSize (fun _ => a) (ofBox (.word "w" [⟨"n", 1⟩, ⟨"s", 0⟩] 0)) = .ok c ∧ tensorEval c = .ok F) ∧
      ∃ c e, ansatz demoSize (fun _ => a) (ofBox (.word "w" [⟨"s", 1⟩, ⟨"n", 2⟩] 1)) = .ok c ∧ tensorEval c = .error e := by
  obtain ⟨sh, fl⟩ := a
  obtain rfl : sh = [6] := hs
  have hl : fl.length = 6 := ha
  constructor
  · obtain ⟨F, hF⟩ := C67_eval_total (R := ℤ) (d := ofBox (.gen "w" [] [3, 2] (some ⟨[6], fl⟩) 0))
      (EvalOK.ofBox ⟨_, rfl, ha, fun _ => by simp [hl], by simp⟩)
    exact ⟨_, F, by rfl, hF⟩
  · exact ⟨ofBox (.gen "w" [] [2, 3] (some ⟨[6], fl⟩) 1), .valueError, by rfl, by rfl⟩

/-! ## A case that meets the hypotheses -/

/-- "John sleeps" with data. -/
def demoVal (s : String) : NdArray ℤ := if s = "John__n" then ⟨[3], [1, 2, 3]⟩ else ⟨[3, 2], [1, 0, 0, 1, 1, 1]⟩

theorem sleeps_drawable : TDrawable demoSize demoVal QBox.sleeps ∧ ∀ b ∈ QBox.sleeps.boxes, TStrong demoSize demoVal b := by
  have hval : ∀ b ∈ QBox.sleeps.boxes, (∀ o ∈ b.dom ++ b.cod, (demoSize o.name).isSome) ∧ TStrong demoSize demoVal b := by
    intro b hb
    simp only [QBox.sleeps, Diagram.boxes, List.map_cons, List.map_nil, List.mem_cons, List.not_mem_nil, or_false] at hb
    rcases hb with rfl | rfl | rfl
    · refine ⟨by decide, ?_⟩
      have : demoVal (Label.label "John" [] (Ty.rotate (-0) [⟨"n", 0⟩])) = ⟨[3], [1, 2, 3]⟩ := by decide +kernel
      show Fits _ _ _ _ _
      rw [this]
      exact ⟨rfl, by decide, fun _ => by decide⟩
    · refine ⟨by decide, ?_⟩
      have : demoVal (Label.label "sleeps" [] (Ty.rotate (-0) [⟨"n", 1⟩, ⟨"s", 0⟩])) = ⟨[3, 2], [1, 0, 0, 1, 1, 1]⟩ := by decide +kernel
      show Fits _ _ _ _ _
      rw [this]
      exact ⟨rfl, by decide, fun _ => by decide⟩
    · exact ⟨by decide, show Box.cupAdjoint _ _ _ = true by decide⟩
  exact ⟨⟨by decide, by decide, fun b hb => ⟨(hval b hb).1, (hval b hb).2.supported⟩⟩, fun b hb => (hval b hb).2⟩

/-- The value of "John sleeps" is the vector of "John" times the matrix of "sleeps". -/
example : ∃ c F, ansatz demoSize demoVal QBox.sleeps = .ok c ∧ c.cod = [2] ∧ tensorEval c = .ok F ∧
    F [0] = (dataInterp demoSize demoVal).mat QBox.sleeps [] [0] := by
  obtain ⟨c, F, h1, _, _, h4, h5, h6⟩ := C83_functor_partial QBox.sleeps sleeps_drawable.1
  refine ⟨c, F, h1, by rw [h4]; decide, h5, ?_⟩
  have := h6 [] (by simp [QBox.sleeps, Interp.idx]) [0] (by rw [Interp.mem_idx]; exact .cons (by decide) .nil)
  rw [← this]
  congr 1

end
end TBox
end Lambeq
