import Verif.Tensor.EvalProps
import Verif.Grammar.BoxProps

/-!
# Adjoints and conjugates of tensor diagrams (C68)
-/

namespace Lambeq
open Diagram
set_option linter.unusedSectionVars false
set_option linter.unusedSimpArgs false

namespace Interp
variable {O B R : Type} [BoxSig B O] [CommSemiring R] (I : Interp O B R)

/-- The matrix of a single layer. -/
theorem mat_layer (l : Layer O B) {xl i xr yl o yr : List Nat}
    (hxl : xl ∈ I.idx l.left) (hi : i ∈ I.idx (BoxSig.dom l.box)) (hyl : yl ∈ I.idx l.left) (ho : o ∈ I.idx (BoxSig.cod l.box)) :
    I.run [l] (fun z => if z = xl ++ (i ++ xr) then (1 : R) else 0) (yl ++ (o ++ yr)) = if yl = xl ∧ yr = xr then I.ten l.box i o else 0 := by
  rw [run, run, I.act_split _ _ _ (I.length_of_mem hyl) (I.length_of_mem ho)]
  have hiff : ∀ k ∈ I.idx (BoxSig.dom l.box), (yl ++ (k ++ yr) = xl ++ (i ++ xr) ↔ k = i ∧ (yl = xl ∧ yr = xr)) := by
    intro k hk
    constructor
    · intro h
      obtain ⟨h1, h2⟩ := List.append_inj h (by rw [I.length_of_mem hyl, I.length_of_mem hxl])
      obtain ⟨h3, h4⟩ := List.append_inj h2 (by rw [I.length_of_mem hk, I.length_of_mem hi])
      exact ⟨h3, h1, h4⟩
    · rintro ⟨rfl, rfl, rfl⟩; rfl
  rw [Finset.sum_eq_single i]
  · by_cases h : yl = xl ∧ yr = xr
    · rw [if_pos ((hiff i hi).2 ⟨rfl, h⟩), if_pos h, one_mul]
    · rw [if_neg (fun e => h ((hiff i hi).1 e).2), if_neg h, zero_mul]
  · intro k hk hne
    rw [if_neg (fun e => hne ((hiff k hk).1 e).1), zero_mul]
  · intro h; exact absurd hi h

/-- Splitting off the first layer. -/
theorem run_cons {c : List O} {l : Layer O B} {ls : List (Layer O B)} (h : Chain l.cod ls c) (v : List Nat → R) {y : List Nat} (hy : y ∈ I.idx c) :
    I.run (l :: ls) v y = ∑ k ∈ I.idx l.cod, I.run [l] v k * I.run ls (fun z => if z = k then 1 else 0) y :=
  I.run_eq_mat (d := ⟨l.cod, c, ls⟩) h (I.act l v) hy

/-- Splitting off the last layer. -/
theorem run_snoc {l : Layer O B} {ls : List (Layer O B)} (v : List Nat → R) {y : List Nat} (hy : y ∈ I.idx l.cod) :
    I.run (ls ++ [l]) v y = ∑ k ∈ I.idx l.dom, I.run ls v k * I.run [l] (fun z => if z = k then 1 else 0) y := by
  rw [run_append]
  exact I.run_eq_mat (d := ⟨l.dom, l.cod, [l]⟩) ⟨rfl, rfl⟩ (I.run ls v) hy

variable [StarRing R]

/-- If the adjoint of each box has the conjugate transposed tensor, so has the adjoint of a diagram. -/
theorem run_dagger_on (bdag : B → B)
    {ls : List (Layer O B)} (hb : ∀ l ∈ ls, BoxSig.dom (bdag l.box) = BoxSig.cod l.box ∧ BoxSig.cod (bdag l.box) = BoxSig.dom l.box)
    {a c : List O} (hc : Chain a ls c)
    (ht : ∀ l ∈ ls, ∀ i ∈ I.idx (BoxSig.dom l.box), ∀ o ∈ I.idx (BoxSig.cod l.box), I.ten (bdag l.box) o i = star (I.ten l.box i o))
    {x y : List Nat} (hx : x ∈ I.idx a) (hy : y ∈ I.idx c) :
    I.run (ls.reverse.map (fun l => { l with box := bdag l.box })) (fun z => if z = y then 1 else 0) x
      = star (I.run ls (fun z => if z = x then 1 else 0) y) := by
  induction ls generalizing a x y with
  | nil =>
    simp only [List.reverse_nil, List.map_nil, run]
    by_cases h : x = y
    · subst h; simp
    · rw [if_neg h, if_neg (fun e => h e.symm), star_zero]
  | cons l ls ih =>
    obtain ⟨h1, h2⟩ := hc
    subst h1
    rw [List.reverse_cons, List.map_append, List.map_cons, List.map_nil]
    have hcod : (⟨l.left, bdag l.box, l.right⟩ : Layer O B).cod = l.dom := by simp only [Layer.cod, Layer.dom, (hb l (by simp)).2]
    have hdom : (⟨l.left, bdag l.box, l.right⟩ : Layer O B).dom = l.cod := by simp only [Layer.cod, Layer.dom, (hb l (by simp)).1]
    rw [I.run_snoc _ (by rw [hcod]; exact hx), hdom, I.run_cons h2 _ hy, star_sum]
    refine Finset.sum_congr rfl (fun k hk => ?_)
    rw [ih (fun l hl => hb l (List.mem_cons_of_mem _ hl)) h2 (fun l hl => ht l (List.mem_cons_of_mem _ hl)) hk hy, star_mul]
    congr 1
    rw [Layer.cod, List.append_assoc] at hk
    obtain ⟨kl, k2, rfl, hkl, hk2⟩ := I.mem_append hk
    obtain ⟨o, kr, rfl, ho, hkr⟩ := I.mem_append hk2
    rw [Layer.dom, List.append_assoc] at hx
    obtain ⟨xl, x2, rfl, hxl, hx2⟩ := I.mem_append hx
    obtain ⟨i, xr, rfl, hi, hxr⟩ := I.mem_append hx2
    rw [I.mat_layer ⟨l.left, bdag l.box, l.right⟩ hkl (by rw [(hb l (by simp)).1]; exact ho) hxl (by rw [(hb l (by simp)).2]; exact hi),
      I.mat_layer l hxl hi hkl ho]
    by_cases h : kl = xl ∧ kr = xr
    · rw [if_pos ⟨h.1.symm, h.2.symm⟩, if_pos h]
      exact ht l (by simp) i hi o ho
    · rw [if_neg (fun e => h ⟨e.1.symm, e.2.symm⟩), if_neg h, star_zero]

/-- `run_dagger_on` for an adjoint that turns all boxes around. -/
theorem run_dagger (bdag : B → B) (hb : ∀ b, BoxSig.dom (bdag b) = BoxSig.cod b ∧ BoxSig.cod (bdag b) = BoxSig.dom b)
    {ls : List (Layer O B)} {a c : List O} (hc : Chain a ls c)
    (ht : ∀ l ∈ ls, ∀ i ∈ I.idx (BoxSig.dom l.box), ∀ o ∈ I.idx (BoxSig.cod l.box), I.ten (bdag l.box) o i = star (I.ten l.box i o))
    {x y : List Nat} (hx : x ∈ I.idx a) (hy : y ∈ I.idx c) :
    I.run (ls.reverse.map (fun l => { l with box := bdag l.box })) (fun z => if z = y then 1 else 0) x
      = star (I.run ls (fun z => if z = x then 1 else 0) y) := I.run_dagger_on bdag (fun l _ => hb l.box) hc ht hx hy

theorem mem_reverse {t : List O} {y : List Nat} : y.reverse ∈ I.idx t.reverse ↔ y ∈ I.idx t := by
  rw [mem_idx, mem_idx, List.forall₂_reverse_iff]

/-- If the conjugate of each box has the conjugate tensor with reversed wires, so has the conjugate of a diagram. -/
theorem run_conj_on (brot : B → B) {ls : List (Layer O B)}
    (hb : ∀ l ∈ ls, BoxSig.dom (brot l.box) = (BoxSig.dom l.box).reverse ∧ BoxSig.cod (brot l.box) = (BoxSig.cod l.box).reverse)
    {a c : List O} (hc : Chain a ls c)
    (ht : ∀ l ∈ ls, ∀ i ∈ I.idx (BoxSig.dom l.box), ∀ o ∈ I.idx (BoxSig.cod l.box), I.ten (brot l.box) i.reverse o.reverse = star (I.ten l.box i o))
    {x y : List Nat} (hx : x ∈ I.idx a) (hy : y ∈ I.idx c) :
    I.run (ls.map (fun l => ⟨l.right.reverse, brot l.box, l.left.reverse⟩)) (fun z => if z = x.reverse then 1 else 0) y.reverse
      = star (I.run ls (fun z => if z = x then 1 else 0) y) := by
  have hchain : ∀ {ls : List (Layer O B)}, (∀ l ∈ ls, BoxSig.dom (brot l.box) = (BoxSig.dom l.box).reverse ∧ BoxSig.cod (brot l.box) = (BoxSig.cod l.box).reverse) →
      ∀ {a c : List O}, Chain a ls c →
      Chain a.reverse (ls.map (fun l => (⟨l.right.reverse, brot l.box, l.left.reverse⟩ : Layer O B))) c.reverse := by
    intro ls
    induction ls with
    | nil => rintro _ a c h; obtain rfl : a = c := h; rfl
    | cons l ls ih =>
      rintro hb a c ⟨h1, h2⟩
      subst h1
      have hl := hb l (by simp)
      refine ⟨by simp [Layer.dom, hl], ?_⟩
      have := ih (fun m hm => hb m (List.mem_cons_of_mem _ hm)) h2
      simpa [Layer.cod, hl] using this
  induction ls generalizing a x y with
  | nil =>
    simp only [List.map_nil, run, List.reverse_inj]
    by_cases h : y = x
    · subst h; simp
    · simp [if_neg h]
  | cons l ls ih =>
    have hc' := hchain hb hc
    have hbl := hb l (by simp)
    obtain ⟨h1, h2⟩ := hc
    subst h1
    obtain ⟨_, hc2⟩ := hc'
    rw [List.map_cons, I.run_cons hc2 _ (I.mem_reverse.2 hy), I.run_cons h2 _ hy, star_sum]
    have hcod : (⟨l.right.reverse, brot l.box, l.left.reverse⟩ : Layer O B).cod = l.cod.reverse := by simp [Layer.cod, hbl]
    rw [hcod]
    refine (Finset.sum_bij' (fun k _ => k.reverse) (fun k _ => k.reverse) (fun k hk => I.mem_reverse.2 hk) (fun k hk => ?_)
      (fun k _ => List.reverse_reverse k) (fun k _ => List.reverse_reverse k) (fun k hk => ?_)).symm
    · rw [← I.mem_reverse, List.reverse_reverse]; exact hk
    · rw [ih (fun l hl => hb l (List.mem_cons_of_mem _ hl)) h2 (fun l hl => ht l (List.mem_cons_of_mem _ hl)) hk hy, star_mul, mul_comm]
      congr 1
      rw [Layer.cod, List.append_assoc] at hk
      obtain ⟨kl, k2, rfl, hkl, hk2⟩ := I.mem_append hk
      obtain ⟨o, kr, rfl, ho, hkr⟩ := I.mem_append hk2
      rw [Layer.dom, List.append_assoc] at hx
      obtain ⟨xl, x2, rfl, hxl, hx2⟩ := I.mem_append hx
      obtain ⟨i, xr, rfl, hi, hxr⟩ := I.mem_append hx2
      simp only [List.reverse_append, List.append_assoc]
      rw [I.mat_layer ⟨l.right.reverse, brot l.box, l.left.reverse⟩ (I.mem_reverse.2 hxr) (by rw [hbl.1]; exact I.mem_reverse.2 hi)
          (I.mem_reverse.2 hkr) (by rw [hbl.2]; exact I.mem_reverse.2 ho), I.mat_layer l hxl hi hkl ho]
      by_cases h : kl = xl ∧ kr = xr
      · rw [if_pos h, if_pos ⟨by rw [h.2], by rw [h.1]⟩, ht l (by simp) i hi o ho]
      · rw [if_neg h, if_neg (fun e => h ⟨List.reverse_injective e.2, List.reverse_injective e.1⟩), star_zero]

theorem run_conj (brot : B → B) (hb : ∀ b, BoxSig.dom (brot b) = (BoxSig.dom b).reverse ∧ BoxSig.cod (brot b) = (BoxSig.cod b).reverse)
    {ls : List (Layer O B)} {a c : List O} (hc : Chain a ls c)
    (ht : ∀ l ∈ ls, ∀ i ∈ I.idx (BoxSig.dom l.box), ∀ o ∈ I.idx (BoxSig.cod l.box), I.ten (brot l.box) i.reverse o.reverse = star (I.ten l.box i o))
    {x y : List Nat} (hx : x ∈ I.idx a) (hy : y ∈ I.idx c) :
    I.run (ls.map (fun l => ⟨l.right.reverse, brot l.box, l.left.reverse⟩)) (fun z => if z = x.reverse then 1 else 0) y.reverse
      = star (I.run ls (fun z => if z = x then 1 else 0) y) :=
  I.run_conj_on brot (fun l _ => hb l.box) hc ht hx hy

end Interp

/-! ## The boxes of the tensor category -/

namespace TBox
variable {R : Type}

/-- `Diagram.dagger` (grammar.py:1064-1071) in the tensor category. -/
def ddagger (d : Diagram Nat (TBox R)) : Diagram Nat (TBox R) := Diagram.daggerWith TBox.dagger d

/-- `Layer.rotate` (grammar.py:1050-1054 and the layers' `rotate`) in the tensor category. -/
def lrotate (z : Int) (l : Layer Nat (TBox R)) : Layer Nat (TBox R) :=
  if z % 2 = 1 then ⟨rotDim z l.right, l.box.rotate z, rotDim z l.left⟩ else ⟨rotDim z l.left, l.box.rotate z, rotDim z l.right⟩

/-- `Diagram.rotate` (grammar.py:1050-1054) in the tensor category. -/
def drotate (z : Int) (d : Diagram Nat (TBox R)) : Diagram Nat (TBox R) := ⟨rotDim z d.dom, rotDim z d.cod, d.layers.map (lrotate z)⟩

theorem dagger_sig (b : TBox R) : b.dagger.dom = b.cod ∧ b.dagger.cod = b.dom := by
  cases b <;> simp [dagger, dom, cod, sig]

theorem rotate_sig (z : Int) (b : TBox R) : (b.rotate z).dom = rotDim z b.dom ∧ (b.rotate z).cod = rotDim z b.cod := by
  induction b with
  | gen n d c data z0 => simp [rotate, dom, cod, sig]
  | cup l r => by_cases h : z % 2 = 1 <;> simp [rotate, dom, cod, sig, rotDim, h]
  | cap l r => by_cases h : z % 2 = 1 <;> simp [rotate, dom, cod, sig, rotDim, h]
  | swap l r => by_cases h : z % 2 = 1 <;> simp [rotate, dom, cod, sig, rotDim, h]
  | spider t m n => by_cases h : z % 2 = 1 <;> simp [rotate, dom, cod, sig, rotDim, h]
  | daggered b ih => exact ⟨ih.2, ih.1⟩

variable [CommSemiring R] [StarRing R] [Inhabited R]

/-- Cups and caps are on wires of dimension one or two. -/
def SmallCups : TBox R → Prop
  | cup l _ => 1 ≤ l ∧ l ≤ 2
  | cap l _ => 1 ≤ l ∧ l ≤ 2
  | _ => True

/-- Like `HasData`, but the data have the shape of the types of the box before any rotation (a NumPy array of the right shape). -/
def Shaped : TBox R → Prop
  | gen _ d c data z => ∃ a, data = some a ∧ a.OK ∧ a.shape = if z % 2 = 1 then d.reverse ++ c.reverse else d ++ c
  | daggered b => b.Shaped
  | cup l r => l = r
  | cap l r => l = r ∧ 0 < l
  | _ => True

theorem ten_data {b : TBox R} {a : NdArray R} (hk : tnCat.kind b = .other) (ha : b.array = .ok a) (i o : List Nat) :
    (tnCat (R := R)).interp.ten b i o = a.get (i ++ o) := by
  have : (tnCat (R := R)).array b = .ok a := ha
  simp only [TnCat.interp, hk, this]

theorem HasData.kind {b : TBox R} (h : b.HasData) : tnCat.kind b = .other := by
  cases b <;> first | rfl | exact h.elim

/-- The tensor of the adjoint of a box is the conjugate transpose, except for cups and caps of dimension three and more. -/
theorem ten_dagger {b : TBox R} (h : b.Evaluable) (hs : b.SmallCups) {i o : List Nat} (hi : InShape b.dom i) (ho : InShape b.cod o) :
    (tnCat (R := R)).interp.ten b.dagger o i = star ((tnCat (R := R)).interp.ten b i o) := by
  have hdata : ∀ b : TBox R, b.HasData → ∀ i o, InShape b.dom i → InShape b.cod o →
      (tnCat (R := R)).interp.ten (daggered b) o i = star ((tnCat (R := R)).interp.ten b i o) := by
    intro b h i o hi ho
    obtain ⟨a, e, hok, hs⟩ := h.array_ok
    obtain ⟨r, e', rok, rs, hr⟩ := adjointArray_spec b.dom b.cod a hok hs
    rw [ten_data h.kind e, ten_data (b := daggered b) rfl (by simp only [array, e, e']; rfl), hr i o hi ho]
  have hcap : ∀ l : Nat, 1 ≤ l ∧ l ≤ 2 → ∀ x, InShape [l, l] x →
      (tnCat (R := R)).interp.ten (cap l l) [] x = if x.head? = x.getLast? then 1 else 0 := by
    intro l hl x hx
    obtain ⟨p, q, rfl, hp, hq⟩ := inShape_two hx
    rw [ten_data (b := cap l l) rfl (capArray l), List.nil_append, get_cap l p q hp hq]
    exact if_congr (by simp; omega) rfl rfl
  cases b with
  | gen n d c data z => exact hdata _ h i o hi ho
  | daggered b =>
    have := hdata b h o i ho hi
    rw [this, star_star]; rfl
  | cup l r =>
    obtain rfl : l = r := h
    obtain rfl : o = [] := List.forall₂_nil_left_iff.1 ho
    rw [dagger, hcap l hs i hi]
    simp only [TnCat.interp, tnCat]
    split <;> simp
  | cap l r =>
    obtain ⟨rfl, _⟩ : l = r ∧ 0 < l := h
    obtain rfl : i = [] := List.forall₂_nil_left_iff.1 hi
    rw [hcap l hs o ho, dagger]
    simp only [TnCat.interp, tnCat]
    split <;> simp
  | swap l r =>
    simp only [dagger, TnCat.interp, tnCat]
    by_cases e : o = i.reverse
    · rw [if_pos e, if_pos (by rw [e, List.reverse_reverse]), star_one]
    · rw [if_neg e, if_neg (fun e' => e (by rw [e', List.reverse_reverse])), star_zero]
  | spider t m n =>
    have h1 : InShape (List.replicate (m + n) t) (i ++ o) := by rw [List.replicate_add]; exact List.rel_append hi ho
    have h2 : InShape (List.replicate (n + m) t) (o ++ i) := by rw [List.replicate_add]; exact List.rel_append ho hi
    rw [dagger, ten_data (b := spider t n m) rfl rfl, ten_data (b := spider t m n) rfl rfl, copyArray, copyArray, NdArray.get_ofFn _ _ h1,
      NdArray.get_ofFn _ _ h2]
    have : (∀ a ∈ o ++ i, ∀ b ∈ o ++ i, a = b) ↔ (∀ a ∈ i ++ o, ∀ b ∈ i ++ o, a = b) := by
      simp only [List.mem_append, or_comm]
    rw [if_congr this rfl rfl]
    split <;> simp

theorem Shaped.evaluable {b : TBox R} (h : b.Shaped) (hd : ∀ b', b = daggered b' → b'.HasData) : b.Evaluable := by
  cases b with
  | gen n d c data z =>
    obtain ⟨a, rfl, hok, hs⟩ := h
    refine ⟨a, rfl, hok, fun hz => ?_, fun hz => ?_⟩
    · rw [if_neg (by omega)] at hs; rw [hok, hs]
    · rw [if_pos hz] at hs; exact hs
  | daggered b => exact hd b rfl
  | _ => exact h

/-- Plain boxes with shaped data, daggers of such boxes, and structural boxes. -/
inductive Concrete : TBox R → Prop
  | gen {n d c data z} : (TBox.gen n d c data z : TBox R).Shaped → Concrete (.gen n d c data z)
  | daggered {n d c data z} : (TBox.gen n d c data z : TBox R).Shaped → Concrete (.daggered (.gen n d c data z))
  | cup {l} : 0 < l → Concrete (.cup l l)
  | cap {l} : 0 < l → Concrete (.cap l l)
  | swap {l r} : Concrete (.swap l r)
  | spider {t m n} : Concrete (.spider t m n)

theorem Concrete.evaluable {b : TBox R} (h : b.Concrete) : b.Evaluable := by
  cases h with
  | gen h => exact h.evaluable (by simp)
  | daggered h =>
    have := h.evaluable (by simp)
    exact this
  | cup h => exact rfl
  | cap h => exact ⟨rfl, h⟩
  | swap => trivial
  | spider => trivial

theorem Shaped.rotate {n d c data z0} (z : Int) (h : (TBox.gen n d c data z0 : TBox R).Shaped) : ((TBox.gen n d c data z0 : TBox R).rotate z).Shaped := by
  obtain ⟨a, rfl, hok, hs⟩ := h
  refine ⟨a, rfl, hok, ?_⟩
  rw [hs]
  unfold rotDim
  by_cases h1 : z0 % 2 = 1 <;> by_cases h2 : z % 2 = 1
  · rw [if_pos h1, if_neg (by omega), if_pos h2, if_pos h2]
  · rw [if_pos h1, if_pos (by omega), if_neg h2, if_neg h2]
  · rw [if_neg h1, if_pos (by omega), if_pos h2, if_pos h2, List.reverse_reverse, List.reverse_reverse]
  · rw [if_neg h1, if_neg (by omega), if_neg h2, if_neg h2]

theorem Concrete.rotate {b : TBox R} (z : Int) (h : b.Concrete) : (b.rotate z).Concrete := by
  cases h with
  | gen h => exact .gen (h.rotate z)
  | daggered h => exact .daggered (h.rotate z)
  | cup h => simp only [TBox.rotate, ite_self]; exact .cup h
  | cap h => simp only [TBox.rotate, ite_self]; exact .cap h
  | swap => simp only [TBox.rotate]; split <;> exact .swap
  | spider => exact .spider

theorem Concrete.dagger {b : TBox R} (h : b.Concrete) : b.dagger.Concrete := by
  cases h with
  | gen h => exact .daggered h
  | daggered h => exact .gen h
  | cup h => exact .cap h
  | cap h => exact .cup h
  | swap => exact .swap
  | spider => exact .spider

/-- The tensor of the conjugate of a box is the conjugate with the wires reversed. -/
theorem ten_rotate {b : TBox R} (h : b.Concrete) (z : Int) (hz : z % 2 = 1) {i o : List Nat} (hi : InShape b.dom i) (ho : InShape b.cod o) :
    (tnCat (R := R)).interp.ten (b.rotate z) i.reverse o.reverse = star ((tnCat (R := R)).interp.ten b i o) := by
  have hrev : ∀ {s x : List Nat}, InShape s x → InShape s.reverse x.reverse := fun h => List.forall₂_reverse_iff.2 h
  have hgen : ∀ n d c data z0, (TBox.gen n d c data z0 : TBox R).Shaped → ∀ i o, InShape d i → InShape c o →
      (tnCat (R := R)).interp.ten ((TBox.gen n d c data z0 : TBox R).rotate z) i.reverse o.reverse
        = star ((tnCat (R := R)).interp.ten (TBox.gen n d c data z0 : TBox R) i o) := by
    intro n d c data z0 hs i o hi ho
    obtain ⟨a, rfl, hok, hs⟩ := hs
    by_cases h0 : z0 % 2 = 1
    · rw [if_pos h0] at hs
      obtain ⟨r, e, rok, rs, hr⟩ := conjugateArray_spec d c a hok hs
      rw [ten_data (b := TBox.gen n d c (some a) z0) rfl (a := r) (by
        simp only [array, h0, if_true, e]; rw [← rs, NdArray.reshape_self r rok]), hr i o hi ho, star_star]
      have h1 : ¬ (z0 + z) % 2 % 2 = 1 := by omega
      rw [rotate, ten_data rfl (a := a) (by
        simp only [array, rotDim, hz, if_true, h1, if_false]; rw [← hs, NdArray.reshape_self a hok])]
    · rw [if_neg h0] at hs
      have h1 : (z0 + z) % 2 % 2 = 1 := by omega
      obtain ⟨r, e, rok, rs, hr⟩ := conjugateArray_spec d.reverse c.reverse a hok (by rw [hs]; simp)
      rw [rotate, ten_data rfl (a := r) (by
        simp only [array, rotDim, hz, if_true, h1, e]; rw [← rs, NdArray.reshape_self r rok]), hr _ _ (hrev hi) (hrev ho)]
      rw [ten_data (b := TBox.gen n d c (some a) z0) rfl (a := a) (by
        simp only [array, h0, if_false]; rw [← hs, NdArray.reshape_self a hok])]
      simp
  cases h with
  | gen h => exact hgen _ _ _ _ _ h i o hi ho
  | @daggered n d c data z0 h =>
    have h' : (TBox.gen n d c data z0 : TBox R).Evaluable := (Concrete.gen h).evaluable
    have h'' : ((TBox.gen n d c data z0 : TBox R).rotate z).Evaluable := ((Concrete.gen h).rotate z).evaluable
    have e1 := ten_dagger h' trivial (i := o) (o := i) ho hi
    have hsig := rotate_sig z (TBox.gen n d c data z0 : TBox R)
    have e2 := ten_dagger h'' trivial (i := o.reverse) (o := i.reverse)
      (by rw [hsig.1, rotDim, if_pos hz]; exact hrev ho) (by rw [hsig.2, rotDim, if_pos hz]; exact hrev hi)
    show (tnCat (R := R)).interp.ten ((TBox.gen n d c data z0 : TBox R).rotate z).dagger i.reverse o.reverse = _
    rw [e2, hgen _ _ _ _ _ h o i ho hi]
    exact congrArg star e1.symm
  | cup h =>
    simp only [rotate, ite_self, TnCat.interp, tnCat, List.head?_reverse, List.getLast?_reverse]
    by_cases e : i.head? = i.getLast?
    · simp [e]
    · rw [if_neg e, if_neg (fun e' => e e'.symm), star_zero]
  | @cap l h =>
    simp only [rotate, ite_self]
    obtain rfl : i = [] := List.forall₂_nil_left_iff.1 hi
    obtain ⟨p, q, rfl, hp, hq⟩ := inShape_two ho
    rw [ten_data (b := cap l l) rfl (capArray l), ten_data (b := cap l l) rfl (capArray l)]
    simp only [List.reverse_nil, List.nil_append, List.reverse_cons, List.cons_append]
    rw [get_cap l q p hq hp, get_cap l p q hp hq, if_congr (show _ ↔ ((p = 0 ∧ q = 0) ∨ (p + 1 = l ∧ q + 1 = l)) by tauto) rfl rfl]
    split <;> simp
  | swap =>
    simp only [rotate, hz, if_true, TnCat.interp, tnCat, List.reverse_inj]
    split <;> simp
  | @spider t m n =>
    have h1 : InShape (List.replicate (m + n) t) (i ++ o) := by rw [List.replicate_add]; exact List.rel_append hi ho
    have h2 : InShape (List.replicate (m + n) t) (i.reverse ++ o.reverse) := by
      rw [List.replicate_add]
      refine List.rel_append ?_ ?_
      · rw [← List.reverse_replicate]; exact hrev hi
      · rw [← List.reverse_replicate]; exact hrev ho
    rw [rotate, ten_data (b := spider t m n) rfl rfl, ten_data (b := spider t m n) rfl rfl, copyArray, NdArray.get_ofFn _ _ h1,
      NdArray.get_ofFn _ _ h2]
    have : (∀ a ∈ i.reverse ++ o.reverse, ∀ b ∈ i.reverse ++ o.reverse, a = b) ↔ (∀ a ∈ i ++ o, ∀ b ∈ i ++ o, a = b) := by
      simp only [List.mem_append, List.mem_reverse]
    rw [if_congr this rfl rfl]
    split <;> simp

end TBox

variable {R : Type} [CommSemiring R] [StarRing R] [Inhabited R]

/-- A well-typed diagram of concrete boxes. -/
structure ConcreteOK (d : Diagram Nat (TBox R)) : Prop where
  wt : d.WT
  boxes : ∀ l ∈ d.layers, l.box.Concrete

theorem ConcreteOK.evalOK {d : Diagram Nat (TBox R)} (h : ConcreteOK d) : EvalOK d := ⟨h.wt, fun l hl => (h.boxes l hl).evaluable⟩

theorem ConcreteOK.dagger {d : Diagram Nat (TBox R)} (h : ConcreteOK d) : ConcreteOK (TBox.ddagger d) := by
  refine ⟨WT.daggerWith TBox.dagger TBox.dagger_sig h.wt, ?_⟩
  intro l hl
  rw [TBox.ddagger, daggerWith_eq _ _ h.wt] at hl
  obtain ⟨l', hl', rfl⟩ := List.mem_map.1 hl
  exact (h.boxes l' (List.mem_reverse.1 hl')).dagger

/-- **C68 (adjoint).** If all cups and caps are on wires of dimension at most two, the adjoint of a diagram evaluates to the conjugate transpose. -/
theorem C68_dagger_partial {d : Diagram Nat (TBox R)} (h : ConcreteOK d) (hs : ∀ l ∈ d.layers, l.box.SmallCups) :
    ∃ F G : List Nat → R, tensorEval d = .ok F ∧ tensorEval (TBox.ddagger d) = .ok G ∧ (TBox.ddagger d).dom = d.cod ∧ (TBox.ddagger d).cod = d.dom ∧
      ∀ x y, InShape d.dom x → InShape d.cod y → G (y ++ x) = star (F (x ++ y)) := by
  obtain ⟨F, f1, f2⟩ := tensorEval_spec h.evalOK
  obtain ⟨G, g1, g2⟩ := tensorEval_spec h.dagger.evalOK
  have hsig := daggerWith_dom_cod TBox.dagger d h.wt
  refine ⟨F, G, f1, g1, hsig.1, hsig.2.1, fun x y hx hy => ?_⟩
  rw [f2 x y hx hy, g2 y x (by rw [TBox.ddagger, hsig.1]; exact hy) (by rw [TBox.ddagger, hsig.2.1]; exact hx)]
  rw [Interp.mat, TBox.ddagger, hsig.2.2]
  exact Interp.run_dagger _ TBox.dagger TBox.dagger_sig h.wt
    (fun l hl i hi o ho => TBox.ten_dagger (h.boxes l hl).evaluable (hs l hl) (mem_idxT.1 hi) (mem_idxT.1 ho)) (mem_idxT.2 hx) (mem_idxT.2 hy)

/-- **C68 (adjoint, refuted).** The adjoint of a cup of dimension three is not its conjugate transpose. -/
theorem C68_refuted_dagger (hR : (1 : R) ≠ 0) :
    ∃ (d : Diagram Nat (TBox R)) (F G : List Nat → R), ConcreteOK d ∧ tensorEval d = .ok F ∧ tensorEval (TBox.ddagger d) = .ok G ∧
      InShape d.dom [1, 1] ∧ InShape d.cod [] ∧ G ([] ++ [1, 1]) ≠ star (F ([1, 1] ++ [])) := by
  have h1 : ConcreteOK (ofBox (TBox.cup 3 3 : TBox R)) := ⟨(EvalOK.ofBox (b := TBox.cup 3 3) rfl).wt, by
    intro l hl
    simp only [ofBox, List.mem_singleton] at hl
    subst hl; exact .cup (by omega)⟩
  obtain ⟨F, hF⟩ := C67_eval_total h1.evalOK
  obtain ⟨G, hG⟩ := C67_eval_total h1.dagger.evalOK
  have hF' := (C67_eval_structural (F := F)).1 3 hF 1 1 (by omega) (by omega)
  have hG' := eval_cap 3 (by omega) (F := G) hG 1 1 (by omega) (by omega)
  refine ⟨_, F, G, h1, hF, hG, .two (by omega) (by omega), .nil, ?_⟩
  simp only [List.nil_append, List.append_nil]
  rw [hF', hG', if_neg (by omega), if_pos rfl, star_one]
  exact hR.symm

theorem chain_lrotate (z : Int) {ls : List (Layer Nat (TBox R))} {a c : List Nat} (h : Chain a ls c) :
    Chain (rotDim z a) (ls.map (TBox.lrotate z)) (rotDim z c) := by
  induction ls generalizing a with
  | nil => obtain rfl : a = c := h; rfl
  | cons l ls ih =>
    obtain ⟨h1, h2⟩ := h
    subst h1
    have hb := TBox.rotate_sig z l.box
    have hs : (TBox.lrotate z l).dom = rotDim z l.dom ∧ (TBox.lrotate z l).cod = rotDim z l.cod := by
      unfold TBox.lrotate
      by_cases hz : z % 2 = 1
      · simp [Layer.dom, Layer.cod, BoxSig.dom, BoxSig.cod, hb, rotDim, hz]
      · simp [Layer.dom, Layer.cod, BoxSig.dom, BoxSig.cod, hb, rotDim, hz]
    refine ⟨hs.1, ?_⟩
    rw [hs.2]; exact ih h2

theorem ConcreteOK.rotate {d : Diagram Nat (TBox R)} (h : ConcreteOK d) (z : Int) : ConcreteOK (TBox.drotate z d) := by
  refine ⟨chain_lrotate z h.wt, fun l hl => ?_⟩
  obtain ⟨l', hl', rfl⟩ := List.mem_map.1 hl
  have := (h.boxes l' hl').rotate z
  unfold TBox.lrotate
  split <;> exact this

/-- **C68 (conjugate).** Rotating a diagram an odd number of times (left or right adjoints) evaluates to the conjugate with the wires of
each side reversed; in every dimension. -/
theorem C68_rotate_odd {d : Diagram Nat (TBox R)} (h : ConcreteOK d) (z : Int) (hz : z % 2 = 1) :
    ∃ F G : List Nat → R, tensorEval d = .ok F ∧ tensorEval (TBox.drotate z d) = .ok G ∧
      (TBox.drotate z d).dom = d.dom.reverse ∧ (TBox.drotate z d).cod = d.cod.reverse ∧
      ∀ x y, InShape d.dom x → InShape d.cod y → G (x.reverse ++ y.reverse) = star (F (x ++ y)) := by
  obtain ⟨F, f1, f2⟩ := tensorEval_spec h.evalOK
  obtain ⟨G, g1, g2⟩ := tensorEval_spec (h.rotate z).evalOK
  have hd : (TBox.drotate z d).dom = d.dom.reverse := by simp [TBox.drotate, rotDim, hz]
  have hc : (TBox.drotate z d).cod = d.cod.reverse := by simp [TBox.drotate, rotDim, hz]
  refine ⟨F, G, f1, g1, hd, hc, fun x y hx hy => ?_⟩
  rw [f2 x y hx hy, g2 x.reverse y.reverse (by rw [hd]; exact List.forall₂_reverse_iff.2 hx) (by rw [hc]; exact List.forall₂_reverse_iff.2 hy)]
  have hl : (TBox.drotate z d).layers = d.layers.map (fun l => ⟨l.right.reverse, l.box.rotate z, l.left.reverse⟩) := by
    simp only [TBox.drotate]
    refine List.map_congr_left (fun l _ => ?_)
    simp [TBox.lrotate, hz, rotDim]
  rw [Interp.mat, hl]
  exact Interp.run_conj _ (TBox.rotate z) (fun b => by
      have := TBox.rotate_sig z b
      simp only [rotDim, hz, if_true] at this
      exact this) h.wt
    (fun l hl i hi o ho => TBox.ten_rotate (h.boxes l hl) z hz (mem_idxT.1 hi) (mem_idxT.1 ho)) (mem_idxT.2 hx) (mem_idxT.2 hy)

/-- **C68 (conjugating twice).** Rotating twice in the same direction, or once each way, gives a diagram with the same value. -/
theorem C68_rotate_rotate {d : Diagram Nat (TBox R)} (h : ConcreteOK d) (z z' : Int) (hz : z % 2 = 1) (hz' : z' % 2 = 1) :
    ∃ F G : List Nat → R, tensorEval d = .ok F ∧ tensorEval (TBox.drotate z' (TBox.drotate z d)) = .ok G ∧
      (TBox.drotate z' (TBox.drotate z d)).dom = d.dom ∧ (TBox.drotate z' (TBox.drotate z d)).cod = d.cod ∧
      ∀ x y, InShape d.dom x → InShape d.cod y → G (x ++ y) = F (x ++ y) := by
  obtain ⟨F, F1, f1, f2, f3, f4, f5⟩ := C68_rotate_odd h z hz
  obtain ⟨F1', G, g1, g2, g3, g4, g5⟩ := C68_rotate_odd (h.rotate z) z' hz'
  cases f2.symm.trans g1
  refine ⟨F, G, f1, g2, by rw [g3, f3, List.reverse_reverse], by rw [g4, f4, List.reverse_reverse], fun x y hx hy => ?_⟩
  have := g5 x.reverse y.reverse (by rw [f3]; exact List.forall₂_reverse_iff.2 hx) (by rw [f4]; exact List.forall₂_reverse_iff.2 hy)
  rw [List.reverse_reverse, List.reverse_reverse] at this
  rw [this, f5 x y hx hy, star_star]

/-- Non-vacuity: a box with a 2×3 array, composed with its adjoint. -/
example : let f : TBox ℤ := .gen "f" [2] [3] (some ⟨[2, 3], [1, 2, 3, 4, 5, 6]⟩) 0
    let d : Diagram Nat (TBox ℤ) := ⟨[2], [2], [⟨[], f, []⟩, ⟨[], f.dagger, []⟩]⟩
    ConcreteOK d ∧ (∀ l ∈ d.layers, l.box.SmallCups) ∧ d.layers.length = 2 := by
  refine ⟨⟨⟨rfl, rfl, rfl⟩, ?_⟩, ?_, rfl⟩
  · intro l hl
    simp only [List.mem_cons, List.not_mem_nil, or_false] at hl
    rcases hl with rfl | rfl
    · exact .gen ⟨_, rfl, rfl, rfl⟩
    · exact .daggered ⟨_, rfl, rfl, rfl⟩
  · intro l hl
    simp only [List.mem_cons, List.not_mem_nil, or_false] at hl
    rcases hl with rfl | rfl <;> trivial

end Lambeq
