import Verif.Ansatz.Functor
import Verif.Ansatz.SwapTypes
import Verif.Ansatz.HermInterp
import Verif.Ansatz.Label
import Verif.Grammar.NormalProps
import Verif.Rewrite.DiagramRewriterProps

/-!
# Circuits of diagrams

Models the functor of `CircuitAnsatz` (`lambeq/ansatz/circuit.py` 110-120, 146-160): `Functor(target_category=quantum, ob=self._ob, ar=self._ar)`, with the
special boxes of the quantum category. C77: the circuit of a diagram computes the contraction of the circuits of its words.

Simplifications: no frames (`__call__` raises for them); the values of `ob_map` are numbers of qubits.
-/

namespace Lambeq
open Diagram
set_option linter.unusedSectionVars false
set_option linter.unusedSimpArgs false

namespace QBox
noncomputable section

/-- circuit.py:110-112, 146-147 with `target_category=quantum`. -/
def qFunctor (size : String → Option Nat) (ar : Box → Except PyErr Circ) : TFunctor QOb QBox where
  ob n := match size n with
    | none => .error .keyError
    | some k => .ok (qubits k)
  ar := ar
  rotTy := rotTy
  rotate := drotate
  dagger d := .ok (ddagger d)
  cup l r _ := generateCup l r
  cap l r _ := generateCap l r
  swap := swapTys
  spider := generateSpider

/-- circuit.py:160-163: `_ar`, on plain boxes and words. `anc` is `_get_n_ancillas`. -/
def Ansatz.arBox (A : Ansatz) (val : String → ℝ) (anc : Box → Int) : Box → Except PyErr Circ
  | .gen n d c z => A.ar val (Label.label n d c) d c (anc (.gen n d c z))
  | .word n c z => A.ar val (Label.label n [] c) [] c (anc (.word n c z))
  | _ => .error .attributeError

/-- circuit.py:114-120: the ansatz applied to a diagram. -/
def Ansatz.apply (A : Ansatz) (val : String → ℝ) (anc : Box → Int) (d : GDiagram) : Except PyErr Circ :=
  (qFunctor A.obMap (A.arBox val anc)).onDiagram d

/-! ## Specification -/

/-- The number of qubits of an atomic type, by name. -/
def nq (size : String → Option Nat) (n : String) : Nat := (size n).getD 0

/-- The binary digits of a number below `2 ^ k`, most significant first. -/
def bitsOf : Nat → Nat → List Nat
  | 0, _ => []
  | k + 1, n => n / 2 ^ k :: bitsOf k (n % 2 ^ k)

/-- How basis state `n` of an atomic type is written on its qubits: in binary, from right to left for adjoints of odd order. -/
def encQ (size : String → Option Nat) (o : Ob) (n : Nat) : List Nat :=
  if o.z % 2 = 1 then (bitsOf (nq size o.name) n).reverse else bitsOf (nq size o.name) n

/-- The tensor of a box: the amplitudes of its circuit. -/
def circT (size : String → Option Nat) (ar : Box → Except PyErr Circ) (b : Box) (x y : List Nat) : ℂ :=
  match ar b with
  | .error _ => 0
  | .ok p => match pureEval p with
    | .error _ => 0
    | .ok F => F (encTy (encQ size) b.dom x ++ encTy (encQ size) b.cod y)

/-- The meaning of a diagram: the contraction of the circuits of its boxes. -/
abbrev circInterp (size : String → Option Nat) (ar : Box → Except PyErr Circ) : Interp Ob Box ℂ :=
  hermInterp (fun n => 2 ^ nq size n) (circT size ar)

/-- The box `b` of winding number 0 has a pure circuit of the right type, with boxes that can be conjugated and daggered. -/
def WordOK (size : String → Option Nat) (ar : Box → Except PyErr Circ) (b : Box) : Prop :=
  ∃ p, ar b = .ok p ∧ PureOK p ∧ p.dom = qubits (sizeOf' (nq size) b.dom) ∧ p.cod = qubits (sizeOf' (nq size) b.cod) ∧ Nice p

/-- The boxes a circuit functor can handle. Spiders must be on a type of at most one qubit, unless they are wires. -/
def Supported (size : String → Option Nat) (ar : Box → Except PyErr Circ) : Box → Prop
  | .gen n d c z => WordOK size ar (.gen n (Ty.rotate (-z) d) (Ty.rotate (-z) c) 0)
  | .word n c z => WordOK size ar (.word n (Ty.rotate (-z) c) 0)
  | .cup l r rev => (Box.cup l r rev).Valid
  | .cap l r rev => (Box.cap l r rev).Valid
  | .swap _ _ => True
  | .spider t n m => (size t.name).isSome ∧ (nq size t.name ≤ 1 ∨ (n = 1 ∧ m = 1))
  | .daggered b => Supported size ar b ∧ (∃ n d c z, b = .gen n d c z ∨ b = .word n c z)

/-! ## Lemmas -/

theorem bitsOf_bits : ∀ (k n : Nat), n < 2 ^ k → Bits k (bitsOf k n)
  | 0, _, _ => Bits.nil
  | k + 1, n, h => (bitsOf_bits k (n % 2 ^ k) (Nat.mod_lt _ (by positivity))).cons (by
      rw [Nat.div_lt_iff_lt_mul (by positivity)]; rw [pow_succ] at h; omega)

theorem bitsOf_inj : ∀ (k n m : Nat), n < 2 ^ k → m < 2 ^ k → bitsOf k n = bitsOf k m → n = m
  | 0, n, m, h, h', _ => by simp at h h'; omega
  | k + 1, n, m, _, _, e => by
      simp only [bitsOf, List.cons.injEq] at e
      have h2 := bitsOf_inj k _ _ (Nat.mod_lt _ (by positivity)) (Nat.mod_lt _ (by positivity)) e.2
      rw [← Nat.div_add_mod n (2 ^ k), ← Nat.div_add_mod m (2 ^ k), e.1, h2]

theorem bitsOf_surj : ∀ (k : Nat) (x : List Nat), Bits k x → ∃ n < 2 ^ k, bitsOf k n = x
  | 0, x, h => ⟨0, by simp, h.eq_nil.symm⟩
  | k + 1, x, h => by
      obtain ⟨c, y, rfl, hc, hy⟩ := h.uncons
      obtain ⟨n, hn, rfl⟩ := bitsOf_surj k y hy
      refine ⟨c * 2 ^ k + n, ?_, ?_⟩
      · rw [pow_succ]
        have : c ≤ 1 := by omega
        have := Nat.mul_le_mul_right (2 ^ k) this
        omega
      · have hp : 0 < 2 ^ k := by positivity
        rw [bitsOf, mul_comm c, Nat.mul_add_div hp, Nat.div_eq_of_lt hn, Nat.mul_add_mod, Nat.mod_eq_of_lt hn, Nat.add_zero]

variable {size : String → Option Nat} {ar : Box → Except PyErr Circ}

theorem encQ_bits (o : Ob) {n : Nat} (h : n < 2 ^ nq size o.name) : Bits (nq size o.name) (encQ size o n) := by
  unfold encQ
  split
  · exact Bits.reverse (bitsOf_bits _ _ h)
  · exact bitsOf_bits _ _ h

theorem imageTy_qubits (f : String → Nat) (t : Ty) : imageTy (fun o => qubits (f o.name)) t = qubits (sizeOf' f t) := by
  induction t with
  | nil => rfl
  | cons o t ih =>
    have : imageTy (fun o => qubits (f o.name)) (o :: t) = qubits (f o.name) ++ imageTy (fun o => qubits (f o.name)) t := rfl
    rw [this, ih, qubits_add]; rfl

theorem qEncodes : Encodes (qFunctor size ar) tnCat.interp (circInterp size ar) (fun o => qubits (nq size o.name)) (encQ size) (fun o => (size o.name).isSome) where
  ob o ho := by
    obtain ⟨k, hk⟩ := Option.isSome_iff_exists.1 ho
    simp only [TFunctor.onOb, qFunctor, hk, nq, Option.getD_some, rotTy, qubits_reverse, ite_self]
  maps o _ n hn := (mem_idxQ dim_tn).2 (by rw [qubits_length]; exact encQ_bits o hn)
  inj o _ n hn m hm e := by
    unfold encQ at e
    split at e
    · exact bitsOf_inj _ _ _ hn hm (List.reverse_injective e)
    · exact bitsOf_inj _ _ _ hn hm e
  surj o _ y hy := by
    rw [mem_idxQ dim_tn, qubits_length] at hy
    by_cases h : o.z % 2 = 1
    · obtain ⟨n, hn, e⟩ := bitsOf_surj _ _ (Bits.reverse hy)
      exact ⟨n, hn, by rw [encQ, if_pos h, e, List.reverse_reverse]⟩
    · obtain ⟨n, hn, e⟩ := bitsOf_surj _ _ hy
      exact ⟨n, hn, by rw [encQ, if_neg h, e]⟩

theorem encTy_bits {t : Ty} {x : List Nat} (ht : ∀ o ∈ t, (size o.name).isSome) (hx : x ∈ (circInterp size ar).idx t) :
    Bits (sizeOf' (nq size) t) (encTy (encQ size) t x) := by
  have := (qEncodes (size := size) (ar := ar)).mem ht hx
  rwa [mem_idxQ dim_tn, imageTy_qubits, qubits_length] at this

theorem encTy_even {z : Int} (hz : z % 2 = 0) : ∀ (t : Ty) (x : List Nat), encTy (encQ size) (Ty.rotate z t) x = encTy (encQ size) t x := by
  intro t
  rw [Ty.rotate, if_neg (by omega)]
  induction t with
  | nil => intro x; rfl
  | cons o t ih =>
    intro x
    cases x with
    | nil => rfl
    | cons n x =>
      rw [List.map_cons, encTy, encTy, ih x]
      have : encQ size (Ty.rotOb z o) n = encQ size o n := by
        have h1 : (Ty.rotOb z o).z % 2 = o.z % 2 := by simp only [Ty.rotOb]; omega
        unfold encQ
        rw [show nq size (Ty.rotOb z o).name = nq size o.name from rfl]
        exact if_congr (by rw [h1]) rfl rfl
      rw [this]

theorem encTy_odd {z : Int} (hz : z % 2 = 1) : ∀ (t : Ty) (x : List Nat), x.length = t.length →
    encTy (encQ size) (Ty.rotate z t) x.reverse = (encTy (encQ size) t x).reverse := by
  intro t
  rw [Ty.rotate, if_pos hz]
  induction t with
  | nil => intro x hx; obtain rfl := List.length_eq_zero_iff.1 hx; rfl
  | cons o t ih =>
    intro x hx
    cases x with
    | nil => simp at hx
    | cons n x =>
      have hx' : x.length = t.length := by simpa using hx
      rw [List.map_cons, List.reverse_cons, List.reverse_cons, encTy_append _ _ _ _ _ (by simp [hx']), ih x hx', show encTy (encQ size) (o :: t) (n :: x) = encQ size o n ++ encTy (encQ size) t x from rfl, List.reverse_append]
      congr 1
      have : encQ size (Ty.rotOb z o) n = (encQ size o n).reverse := by
        have h1 : (Ty.rotOb z o).z % 2 = (o.z + 1) % 2 := by simp only [Ty.rotOb]; omega
        unfold encQ
        rcases Int.emod_two_eq_zero_or_one o.z with h | h
        · rw [if_pos (by omega), if_neg (by omega)]; rfl
        · rw [if_neg (by omega), if_pos h, List.reverse_reverse]; rfl
      simp [encTy, this]

theorem sizeOf'_rotate (f : String → Nat) (z : Int) (t : Ty) : sizeOf' f (Ty.rotate z t) = sizeOf' f t := by
  have h : (t.map (Ty.rotOb z)).map (fun o => f o.name) = t.map (fun o => f o.name) := by
    rw [List.map_map]; exact List.map_congr_left (fun o _ => rfl)
  unfold sizeOf' Ty.rotate
  split
  · rw [List.map_reverse, List.sum_reverse, h]
  · rw [h]

theorem isSome_rotate {z : Int} {t : Ty} (h : ∀ o ∈ t, (size o.name).isSome) : ∀ o ∈ Ty.rotate z t, (size o.name).isSome := by
  intro o ho
  have : o ∈ t.map (Ty.rotOb z) := by
    unfold Ty.rotate at ho
    split at ho
    · exact List.mem_reverse.1 ho
    · exact ho
  obtain ⟨p, hp, rfl⟩ := List.mem_map.1 this
  exact h p hp

/-- The check at the end of the functor passes. -/
theorem q_check {dom cod : Ty} (hd : ∀ o ∈ dom, (size o.name).isSome) (hc : ∀ o ∈ cod, (size o.name).isSome) {p : Circ}
    (h1 : p.dom = qubits (sizeOf' (nq size) dom)) (h2 : p.cod = qubits (sizeOf' (nq size) cod)) : (qFunctor size ar).check dom cod p = .ok p := by
  rw [TFunctor.check, qEncodes.onTy hd, qEncodes.onTy hc]
  show (if p.cod ≠ imageTy _ cod ∨ p.dom ≠ imageTy _ dom then _ else _) = _
  rw [if_neg (by rw [imageTy_qubits, imageTy_qubits, h1, h2]; simp)]

/-- Rotating keeps the promise of the flags. -/
theorem adjAll_drotate {d d' : Circ} (h : ConjOK d) (ha : AdjAll d) {z : Int} (e : drotate z d = .ok d') : AdjAll d' := by
  rcases Int.emod_two_eq_zero_or_one z with hz | hz
  · rw [drotate_even h hz] at e
    cases e
    intro l hl
    obtain ⟨l', hl', rfl⟩ := List.mem_map.1 hl
    exact (conj_conjBox (h.boxes l' hl') (h.conj l' hl') (ha l' hl') z).2
  · rw [drotate_odd h hz] at e
    cases e
    intro l hl
    obtain ⟨l', hl', rfl⟩ := List.mem_map.1 hl
    exact (conj_conjBox (h.boxes l' hl') (h.conj l' hl') (ha l' hl') z).2

/-- What the functor makes of a plain box or word, before and after rotation. -/
theorem base_ok {b0 : Box} (h : WordOK size ar b0) (z : Int) (hd : ∀ o ∈ b0.dom, (size o.name).isSome) (hc : ∀ o ∈ b0.cod, (size o.name).isSome) :
    ∃ p0 p, ar b0 = .ok p0 ∧ (qFunctor size ar).check b0.dom b0.cod p0 = .ok p0 ∧ (qFunctor size ar).rotate z p0 = .ok p ∧
      Den p (qubits (sizeOf' (nq size) b0.dom)) (qubits (sizeOf' (nq size) b0.cod)) (fun x y =>
        if z % 2 = 0 then tnCat.interp.mat p0 x y else star (tnCat.interp.mat p0 x.reverse y.reverse)) ∧ AdjAll p ∧
      Den p0 (qubits (sizeOf' (nq size) b0.dom)) (qubits (sizeOf' (nq size) b0.cod)) (tnCat.interp.mat p0) ∧ AdjAll p0 := by
  obtain ⟨p0, e0, hp, h1, h2, hn⟩ := h
  have hD : Den p0 (qubits (sizeOf' (nq size) b0.dom)) (qubits (sizeOf' (nq size) b0.cod)) (tnCat.interp.mat p0) := ⟨hp, h1, h2, fun _ _ _ _ => rfl⟩
  have hA : AdjAll p0 := fun l hl => (hn l hl).1
  have hC : ConjOK p0 := ⟨hp, fun l hl => (hn l hl).2⟩
  rcases Int.emod_two_eq_zero_or_one z with hz | hz
  · obtain ⟨p, e, hp'⟩ := hD.drotate_even (fun l hl => (hn l hl).2) hz
    exact ⟨p0, p, e0, q_check hd hc h1 h2, e, hp'.congr (fun x y _ _ => by rw [if_pos hz]), adjAll_drotate hC hA e, hD, hA⟩
  · obtain ⟨p, e, hp'⟩ := hD.drotate_odd (fun l hl => (hn l hl).2) hz
    rw [qubits_reverse, qubits_reverse] at hp'
    exact ⟨p0, p, e0, q_check hd hc h1 h2, e, hp'.congr (fun x y _ _ => by rw [if_neg (by omega)]), adjAll_drotate hC hA e, hD, hA⟩

theorem circT_eq {b : Box} {p : Circ} (e : ar b = .ok p) {n m : Nat} (hD : Den p (qubits n) (qubits m) (tnCat.interp.mat p)) {x y : List Nat}
    (hx : Bits n (encTy (encQ size) b.dom x)) (hy : Bits m (encTy (encQ size) b.cod y)) :
    circT size ar b x y = tnCat.interp.mat p (encTy (encQ size) b.dom x) (encTy (encQ size) b.cod y) := by
  obtain ⟨F, f1, f2⟩ := hD.eval
  simp only [circT, e, f1]
  exact f2 _ _ (by rw [qubits_length]; exact hx) (by rw [qubits_length]; exact hy)

/-- `BoxOK`, with boxes that can be daggered. -/
def BoxDen (size : String → Option Nat) (ar : Box → Except PyErr Circ) (b : Box) : Prop :=
  ∃ p, (qFunctor size ar).onBox b = .ok p ∧ ∃ M, Den p (qubits (sizeOf' (nq size) b.dom)) (qubits (sizeOf' (nq size) b.cod)) M ∧ AdjAll p ∧
    ∀ x ∈ (circInterp size ar).idx b.dom, ∀ y ∈ (circInterp size ar).idx b.cod,
      M (encTy (encQ size) b.dom x) (encTy (encQ size) b.cod y) = (circInterp size ar).ten b x y

theorem mem_idx_rotate_odd {z : Int} (hz : z % 2 = 1) {t : Ty} {x : List Nat} (h : x ∈ (circInterp size ar).idx t) :
    x.reverse ∈ (circInterp size ar).idx (Ty.rotate (-z) t) := (hermInterp_compact _ _).mem_reverse (z := -z) (by omega) h

theorem mem_idx_rotate_even {z : Int} (hz : z % 2 = 0) {t : Ty} {x : List Nat} (h : x ∈ (circInterp size ar).idx t) :
    x ∈ (circInterp size ar).idx (Ty.rotate (-z) t) := by
  rw [Interp.mem_idx] at *
  rw [Ty.rotate, if_neg (by omega), List.forall₂_map_left_iff]
  exact h

theorem rotate_back (z : Int) (t : Ty) : Ty.rotate z (Ty.rotate (-z) t) = t := by
  rw [Ty.rotate_rotate, show -z + z = 0 by omega, Ty.rotate_zero]

/-- The value of a rotated box. -/
theorem rotated_value {b0 : Box} {p0 : Circ} {z : Int} {d c : Ty} (e0 : ar b0 = .ok p0) (hd0 : b0.dom = Ty.rotate (-z) d) (hc0 : b0.cod = Ty.rotate (-z) c)
    (hD : Den p0 (qubits (sizeOf' (nq size) b0.dom)) (qubits (sizeOf' (nq size) b0.cod)) (tnCat.interp.mat p0))
    (hd : ∀ o ∈ d, (size o.name).isSome) (hc : ∀ o ∈ c, (size o.name).isSome)
    {x y : List Nat} (hx : x ∈ (circInterp size ar).idx d) (hy : y ∈ (circInterp size ar).idx c) :
    (if z % 2 = 0 then tnCat.interp.mat p0 (encTy (encQ size) d x) (encTy (encQ size) c y)
      else star (tnCat.interp.mat p0 (encTy (encQ size) d x).reverse (encTy (encQ size) c y).reverse)) =
    if z % 2 = 0 then circT size ar b0 x y else star (circT size ar b0 x.reverse y.reverse) := by
  rcases Int.emod_two_eq_zero_or_one z with hz | hz
  · rw [if_pos hz, if_pos hz, circT_eq e0 hD, hd0, hc0, encTy_even (by omega), encTy_even (by omega)]
    · rw [hd0]; exact encTy_bits (ar := ar) (isSome_rotate hd) (mem_idx_rotate_even hz hx)
    · rw [hc0]; exact encTy_bits (ar := ar) (isSome_rotate hc) (mem_idx_rotate_even hz hy)
  · rw [if_neg (by omega), if_neg (by omega), circT_eq e0 hD, hd0, hc0, encTy_odd (by omega) _ _ ((circInterp size ar).length_of_mem hx),
      encTy_odd (by omega) _ _ ((circInterp size ar).length_of_mem hy)]
    · rw [hd0]; exact encTy_bits (ar := ar) (isSome_rotate hd) (mem_idx_rotate_odd hz hx)
    · rw [hc0]; exact encTy_bits (ar := ar) (isSome_rotate hc) (mem_idx_rotate_odd hz hy)

theorem gen_ok {n : String} {d c : Ty} {z : Int} (h : WordOK size ar (.gen n (Ty.rotate (-z) d) (Ty.rotate (-z) c) 0))
    (hd : ∀ o ∈ d, (size o.name).isSome) (hc : ∀ o ∈ c, (size o.name).isSome) : BoxDen size ar (.gen n d c z) := by
  obtain ⟨p0, p, e0, k0, e1, hp, ha, hp0, ha0⟩ := base_ok h z (isSome_rotate hd) (isSome_rotate hc)
  have hv := fun x hx y hy => rotated_value (x := x) (y := y) e0 rfl rfl hp0 hd hc hx hy
  simp only [Box.dom, Box.cod, sizeOf'_rotate] at hp hp0
  by_cases hz : z = 0
  · subst hz
    refine ⟨p0, ?_, _, hp0, ha0, fun x hx y hy => ?_⟩
    · rw [TFunctor.onBox, if_neg (by simp)]
      simp only [neg_zero, Ty.rotate_zero] at e0
      show ((qFunctor size ar).ar _ >>= _) = _
      have : (qFunctor size ar).ar (Box.gen n d c 0) = .ok p0 := e0
      rw [this]
      exact q_check hd hc hp0.dom hp0.cod
    · have := hv x hx y hy
      rw [if_pos (by simp), if_pos (by simp)] at this
      show tnCat.interp.mat p0 (encTy (encQ size) d x) (encTy (encQ size) c y) = hermTen _ _ _ _ _
      rw [this, hermTen, if_pos (by simp)]
  · refine ⟨p, ?_, _, hp, ha, fun x hx y hy => ?_⟩
    · rw [TFunctor.onBox, if_pos hz, Int.add_right_neg]
      have e0' : (qFunctor size ar).ar (Box.gen n (Ty.rotate (-z) d) (Ty.rotate (-z) c) 0) = .ok p0 := e0
      rw [e0']
      have k0' : (qFunctor size ar).check (Ty.rotate (-z) d) (Ty.rotate (-z) c) p0 = .ok p0 := k0
      simp only [bind_ok, k0', e1]
      exact q_check hd hc hp.dom hp.cod
    · exact hv x hx y hy

theorem word_ok {n : String} {c : Ty} {z : Int} (h : WordOK size ar (.word n (Ty.rotate (-z) c) 0))
    (hc : ∀ o ∈ c, (size o.name).isSome) : BoxDen size ar (.word n c z) := by
  have hr : ∀ z, Ty.rotate z ([] : Ty) = [] := fun z => by simp [Ty.rotate]
  obtain ⟨p0, p, e0, k0, e1, hp, ha, hp0, ha0⟩ := base_ok h z (by simp [Box.dom]) (isSome_rotate hc)
  have hv := fun x hx y hy => rotated_value (d := []) (x := x) (y := y) e0 (hr _).symm rfl hp0 (by simp) hc hx hy
  simp only [Box.dom, Box.cod, sizeOf'_rotate] at hp hp0
  by_cases hz : z = 0
  · subst hz
    refine ⟨p0, ?_, _, hp0, ha0, fun x hx y hy => ?_⟩
    · rw [TFunctor.onBox, if_neg (by simp)]
      simp only [neg_zero, Ty.rotate_zero] at e0
      show ((qFunctor size ar).ar _ >>= _) = _
      have : (qFunctor size ar).ar (Box.word n c 0) = .ok p0 := e0
      rw [this]
      exact q_check (by simp) hc hp0.dom hp0.cod
    · have := hv x hx y hy
      rw [if_pos (by simp), if_pos (by simp)] at this
      show tnCat.interp.mat p0 (encTy (encQ size) [] x) (encTy (encQ size) c y) = hermTen _ _ _ _ _
      rw [this, hermTen, if_pos (by simp)]
  · refine ⟨p, ?_, _, hp, ha, fun x hx y hy => ?_⟩
    · rw [TFunctor.onBox, if_pos hz, Int.add_right_neg]
      have e0' : (qFunctor size ar).ar (Box.word n (Ty.rotate (-z) c) 0) = .ok p0 := e0
      rw [e0']
      have k0' : (qFunctor size ar).check [] (Ty.rotate (-z) c) p0 = .ok p0 := k0
      simp only [bind_ok, k0', e1]
      exact q_check (by simp) hc hp.dom hp.cod
    · exact hv x hx y hy

theorem dagger_ok {b : Box} (h : BoxDen size ar b) (hd : ∀ o ∈ b.dom, (size o.name).isSome) (hc : ∀ o ∈ b.cod, (size o.name).isSome) :
    BoxDen size ar (.daggered b) := by
  obtain ⟨p, e, M, hp, ha, hv⟩ := h
  have hD := hp.ddagger ha
  refine ⟨ddagger p, ?_, _, hD, fun l hl => ?_, fun x hx y hy => ?_⟩
  · rw [TFunctor.onBox, e]
    exact q_check hc hd hD.dom hD.cod
  · exact (AdjOK.ddagger ⟨hp.pure, ha⟩).adj l hl
  · show star (M (encTy (encQ size) b.dom y) (encTy (encQ size) b.cod x)) = _
    rw [hv y hy x hx]
    rfl

/-- Boxes of circuits without mixed parts. -/
def PureBox (b : QBox) : Prop := b.Good ∨ ∃ x y, b = QBox.swap x y

theorem boxOK_of_den {b : Box} {p : Circ} {M : List Nat → List Nat → ℂ} (e : (qFunctor size ar).onBox b = .ok p)
    (hp : Den p (qubits (sizeOf' (nq size) b.dom)) (qubits (sizeOf' (nq size) b.cod)) M)
    (hd : ∀ o ∈ b.dom, (size o.name).isSome) (hc : ∀ o ∈ b.cod, (size o.name).isSome)
    (hv : ∀ x ∈ (circInterp size ar).idx b.dom, ∀ y ∈ (circInterp size ar).idx b.cod,
      M (encTy (encQ size) b.dom x) (encTy (encQ size) b.cod y) = (circInterp size ar).ten b x y) :
    BoxOK (qFunctor size ar) tnCat.interp (circInterp size ar) (fun o => qubits (nq size o.name)) (encQ size) PureBox b := by
  refine ⟨p, e, hp.pure.wt, ?_, ?_, hp.pure.boxes, fun x hx y hy => ?_⟩
  · rw [imageTy_qubits]; exact hp.dom
  · rw [imageTy_qubits]; exact hp.cod
  · rw [hp.val _ _ (by rw [qubits_length]; exact encTy_bits (ar := ar) hd hx) (by rw [qubits_length]; exact encTy_bits (ar := ar) hc hy), hv x hx y hy]

theorem idx_two {l r : Ob} {x : List Nat} (h : x ∈ (circInterp size ar).idx [l, r]) :
    ∃ i j, x = [i, j] ∧ i < 2 ^ nq size l.name ∧ j < 2 ^ nq size r.name := by
  rw [Interp.mem_idx] at h
  cases h with
  | @cons _ i _ _ h1 h2 =>
    cases h2 with
    | @cons _ j _ _ h3 h4 =>
      cases h4
      exact ⟨i, j, rfl, h1, h3⟩

theorem idx_none {x : List Nat} (h : x ∈ (circInterp size ar).idx ([] : Ty)) : x = [] :=
  List.length_eq_zero_iff.1 ((circInterp size ar).length_of_mem h)

/-- The codes of adjoint types are mirror images. -/
theorem encQ_adjoint {l r : Ob} (hn : r.name = l.name) (hz : (r.z + 1) % 2 = l.z % 2) {i j : Nat} (hi : i < 2 ^ nq size l.name)
    (hj : j < 2 ^ nq size r.name) : encQ size r j = (encQ size l i).reverse ↔ i = j := by
  rw [hn] at hj
  unfold encQ
  rw [hn]
  rcases Int.emod_two_eq_zero_or_one l.z with h | h
  · rw [if_pos (by omega), if_neg (by omega), List.reverse_inj]
    exact ⟨fun e => (bitsOf_inj _ _ _ hj hi e).symm, fun e => by rw [e]⟩
  · rw [if_neg (by omega), if_pos (by omega), List.reverse_reverse]
    exact ⟨fun e => (bitsOf_inj _ _ _ hj hi e).symm, fun e => by rw [e]⟩

theorem cup_names {l r : Ob} {rev : Bool} (h : (Box.cup l r rev).Valid) : r.name = l.name ∧ (r.z + 1) % 2 = l.z % 2 := by
  cases rev <;> simp [Box.Valid, Box.cupAdjoint, Ty.r, Ty.l, Ty.rotate, Ty.rotOb] at h <;> rw [h] <;> refine ⟨rfl, ?_⟩ <;> simp only <;> omega

theorem cap_names {l r : Ob} {rev : Bool} (h : (Box.cap l r rev).Valid) : r.name = l.name ∧ (r.z + 1) % 2 = l.z % 2 := by
  cases rev <;> simp [Box.Valid, Box.capAdjoint, Ty.r, Ty.l, Ty.rotate, Ty.rotOb] at h <;> rw [h] <;> refine ⟨rfl, ?_⟩ <;> simp only <;> omega

theorem sizeOf'_two (f : String → Nat) (l r : Ob) : sizeOf' f [l, r] = f l.name + f r.name := by simp [sizeOf']

theorem onTy_one {o : Ob} (h : (size o.name).isSome) : (qFunctor size ar).onTy [o] = .ok (qubits (nq size o.name)) := by
  rw [qEncodes.onTy (by simpa using h), imageTy_qubits]; simp [sizeOf']

theorem cup_ok {l r : Ob} {rev : Bool} (h : (Box.cup l r rev).Valid) (hl : (size l.name).isSome) (hr : (size r.name).isSome) :
    BoxOK (qFunctor size ar) tnCat.interp (circInterp size ar) (fun o => qubits (nq size o.name)) (encQ size) PureBox (.cup l r rev) := by
  obtain ⟨hn, hz⟩ := cup_names h
  obtain ⟨p, e, hp⟩ := generateCup_den (nq size l.name)
  rw [qubits_add] at hp
  have hs : sizeOf' (nq size) [l, r] = nq size l.name + nq size l.name := by rw [sizeOf'_two, hn]
  have hdom : ∀ o ∈ [l, r], (size o.name).isSome := by simp [hl, hr]
  refine boxOK_of_den (p := p) (M := fun x _ => if x.drop (nq size l.name) = (x.take (nq size l.name)).reverse then 1 else 0) ?_ ?_ hdom (by simp [Box.cod]) ?_
  · rw [TFunctor.onBox, onTy_one hl, onTy_one hr, hn]
    have : (qFunctor size ar).cup (qubits (nq size l.name)) (qubits (nq size l.name)) rev = .ok p := e
    simp only [bind_ok, this]
    exact q_check hdom (by simp) (by rw [hs]; exact hp.dom) hp.cod
  · show Den p (qubits (sizeOf' (nq size) [l, r])) _ _
    rw [hs]; exact hp
  · intro x hx y hy
    obtain ⟨i, j, rfl, hi, hj⟩ := idx_two hx
    obtain rfl := idx_none hy
    have el : (encQ size l i).length = nq size l.name := (encQ_bits l hi).1
    show (if (encQ size l i ++ (encQ size r j ++ [])).drop _ = ((encQ size l i ++ (encQ size r j ++ [])).take _).reverse then (1 : ℂ) else 0) = hermTen _ _ _ _ _
    rw [List.drop_left' el, List.take_left' el, List.append_nil, hermTen]
    refine if_congr ?_ rfl rfl
    rw [encQ_adjoint hn hz hi hj]
    simp [eq_comm]

theorem cap_ok {l r : Ob} {rev : Bool} (h : (Box.cap l r rev).Valid) (hl : (size l.name).isSome) (hr : (size r.name).isSome) :
    BoxOK (qFunctor size ar) tnCat.interp (circInterp size ar) (fun o => qubits (nq size o.name)) (encQ size) PureBox (.cap l r rev) := by
  obtain ⟨hn, hz⟩ := cap_names h
  obtain ⟨p, e, hp⟩ := generateCap_den (nq size l.name)
  rw [qubits_add] at hp
  have hs : sizeOf' (nq size) [l, r] = nq size l.name + nq size l.name := by rw [sizeOf'_two, hn]
  have hcod : ∀ o ∈ [l, r], (size o.name).isSome := by simp [hl, hr]
  refine boxOK_of_den (p := p) (M := fun _ x => if x.drop (nq size l.name) = (x.take (nq size l.name)).reverse then 1 else 0) ?_ ?_ (by simp [Box.dom]) hcod ?_
  · rw [TFunctor.onBox, onTy_one hl, onTy_one hr, hn]
    have : (qFunctor size ar).cap (qubits (nq size l.name)) (qubits (nq size l.name)) rev = .ok p := e
    simp only [bind_ok, this]
    exact q_check (by simp) hcod hp.dom (by rw [hs]; exact hp.cod)
  · show Den p _ (qubits (sizeOf' (nq size) [l, r])) _
    rw [hs]; exact hp
  · intro y hy x hx
    obtain ⟨i, j, rfl, hi, hj⟩ := idx_two hx
    obtain rfl := idx_none hy
    have el : (encQ size l i).length = nq size l.name := (encQ_bits l hi).1
    show (if (encQ size l i ++ (encQ size r j ++ [])).drop _ = ((encQ size l i ++ (encQ size r j ++ [])).take _).reverse then (1 : ℂ) else 0) = hermTen _ _ _ _ _
    rw [List.drop_left' el, List.take_left' el, List.append_nil, hermTen]
    refine if_congr ?_ rfl rfl
    rw [encQ_adjoint hn hz hi hj]
    simp [eq_comm]

theorem swap_ok (l r : Ob) (hl : (size l.name).isSome) (hr : (size r.name).isSome) :
    BoxOK (qFunctor size ar) tnCat.interp (circInterp size ar) (fun o => qubits (nq size o.name)) (encQ size) PureBox (.swap l r) := by
  obtain ⟨p, e, w, dp, cp, hs, hv⟩ := swapTys_mat (I := tnCat.interp) tnCat_std.swaps (qubits (nq size l.name)) (qubits (nq size r.name))
  have hdom : ∀ o ∈ [l, r], (size o.name).isSome := by simp [hl, hr]
  have hcod : ∀ o ∈ [r, l], (size o.name).isSome := by simp [hl, hr]
  refine ⟨p, ?_, w, ?_, ?_, ?_, ?_⟩
  · rw [TFunctor.onBox, onTy_one hl, onTy_one hr]
    have : (qFunctor size ar).swap (qubits (nq size l.name)) (qubits (nq size r.name)) = .ok p := e
    simp only [bind_ok, this]
    exact q_check hdom hcod (by rw [sizeOf'_two, dp, qubits_add]) (by rw [sizeOf'_two, cp, qubits_add])
  · rw [imageTy_qubits]; show _ = qubits (sizeOf' (nq size) [l, r]); rw [sizeOf'_two, dp, qubits_add]
  · rw [imageTy_qubits]; show _ = qubits (sizeOf' (nq size) [r, l]); rw [sizeOf'_two, cp, qubits_add]
  · intro l hl
    obtain ⟨x, y, h⟩ := hs l hl
    exact .inr ⟨x, y, h⟩
  · intro x hx y hy
    obtain ⟨i, j, rfl, hi, hj⟩ := idx_two (l := l) (r := r) hx
    obtain ⟨i', j', rfl, hi', hj'⟩ := idx_two (l := r) (r := l) hy
    show tnCat.interp.mat p (encQ size l i ++ (encQ size r j ++ [])) (encQ size r i' ++ (encQ size l j' ++ [])) = hermTen _ _ _ _ _
    rw [List.append_nil, List.append_nil, hv, hermTen]
    · refine if_congr ?_ rfl rfl
      constructor
      · intro h
        obtain ⟨h1, h2⟩ := List.append_inj h (by rw [(encQ_bits r hi').1, (encQ_bits r hj).1])
        have q1 := (qEncodes (size := size) (ar := ar)).inj r hr i' hi' j hj h1
        have q2 := (qEncodes (size := size) (ar := ar)).inj l hl j' hj' i hi h2
        simp [q1, q2]
      · intro h
        simp only [List.reverse_cons, List.reverse_nil, List.nil_append, List.cons_append, List.cons.injEq, and_true] at h
        rw [h.1, h.2]
    · exact (mem_idxQ dim_tn).2 (by rw [qubits_length]; exact encQ_bits l hi)
    · exact (mem_idxQ dim_tn).2 (by rw [qubits_length]; exact encQ_bits r hj)
    · exact (mem_idxQ dim_tn).2 (by rw [qubits_add, qubits_length]; exact (encQ_bits r hi').append (encQ_bits l hj'))

theorem sizeOf'_replicate (f : String → Nat) (t : Ob) (n : Nat) : sizeOf' f (List.replicate n t) = n * f t.name := by
  simp [sizeOf']

theorem encTy_zero {t : Ob} (hk : nq size t.name = 0) : ∀ (n : Nat) (x : List Nat), encTy (encQ size) (List.replicate n t) x = []
  | 0, x => by cases x <;> rfl
  | n + 1, [] => rfl
  | n + 1, c :: x => by
      rw [List.replicate_succ, encTy, encTy_zero hk n x]
      have : encQ size t c = [] := by unfold encQ; rw [hk]; simp [bitsOf]
      rw [this]; rfl

theorem encTy_one {t : Ob} (hk : nq size t.name = 1) : ∀ (n : Nat) (x : List Nat), x.length = n → encTy (encQ size) (List.replicate n t) x = x
  | 0, x, h => by obtain rfl := List.length_eq_zero_iff.1 h; rfl
  | n + 1, c :: x, h => by
      rw [List.replicate_succ, encTy, encTy_one hk n x (by simpa using h)]
      have : encQ size t c = [c] := by unfold encQ; rw [hk]; simp [bitsOf]
      rw [this]; rfl

theorem spider_ok {t : Ob} {n m : Nat} (h : nq size t.name ≤ 1 ∨ (n = 1 ∧ m = 1)) (ht : (size t.name).isSome) :
    BoxOK (qFunctor size ar) tnCat.interp (circInterp size ar) (fun o => qubits (nq size o.name)) (encQ size) PureBox (.spider t n m) := by
  have hdom : ∀ o ∈ List.replicate n t, (size o.name).isSome := fun o ho => by rw [List.eq_of_mem_replicate ho]; exact ht
  have hcod : ∀ o ∈ List.replicate m t, (size o.name).isSome := fun o ho => by rw [List.eq_of_mem_replicate ho]; exact ht
  have key : ∀ (p : Circ) (M : List Nat → List Nat → ℂ), generateSpider (qubits (nq size t.name)) n m = .ok p →
      Den p (qubits (n * nq size t.name)) (qubits (m * nq size t.name)) M →
      (∀ x ∈ (circInterp size ar).idx (List.replicate n t), ∀ y ∈ (circInterp size ar).idx (List.replicate m t),
        M (encTy (encQ size) (List.replicate n t) x) (encTy (encQ size) (List.replicate m t) y) =
          ∑ b ∈ Finset.range (2 ^ nq size t.name), if ∀ c ∈ x ++ y, c = b then 1 else 0) →
      BoxOK (qFunctor size ar) tnCat.interp (circInterp size ar) (fun o => qubits (nq size o.name)) (encQ size) PureBox (.spider t n m) := by
    intro p M e hp hv
    refine boxOK_of_den (p := p) (M := M) ?_ ?_ hdom hcod hv
    · rw [TFunctor.onBox, onTy_one ht]
      have : (qFunctor size ar).spider (qubits (nq size t.name)) n m = .ok p := e
      simp only [bind_ok, this]
      exact q_check hdom hcod (by rw [sizeOf'_replicate]; exact hp.dom) (by rw [sizeOf'_replicate]; exact hp.cod)
    · show Den p (qubits (sizeOf' (nq size) (List.replicate n t))) (qubits (sizeOf' (nq size) (List.replicate m t))) M
      rw [sizeOf'_replicate, sizeOf'_replicate]; exact hp
  by_cases h1 : n = 1 ∧ m = 1
  · obtain ⟨rfl, rfl⟩ := h1
    refine key (Diagram.id (qubits (nq size t.name))) _ (by rw [generateSpider, if_pos ⟨rfl, rfl⟩]) (by rw [Nat.one_mul]; exact Den.ofId _) ?_
    intro x hx y hy
    obtain ⟨i, rfl⟩ := List.length_eq_one_iff.1 ((circInterp size ar).length_of_mem hx)
    obtain ⟨j, rfl⟩ := List.length_eq_one_iff.1 ((circInterp size ar).length_of_mem hy)
    have hi : i < 2 ^ nq size t.name := by
      have := ((circInterp size ar).mem_idx _ _).1 hx; cases this with | cons a b => exact a
    have hj : j < 2 ^ nq size t.name := by
      have := ((circInterp size ar).mem_idx _ _).1 hy; cases this with | cons a b => exact a
    have q : ∀ i, encTy (encQ size) (List.replicate 1 t) [i] = encQ size t i := fun i => List.append_nil _
    rw [Finset.sum_eq_single i]
    · refine if_congr ⟨fun e => ?_, fun e => ?_⟩ rfl rfl
      · rw [q, q] at e
        rw [(qEncodes (size := size) (ar := ar)).inj t ht j hj i hi e]; simp
      · rw [e j (by simp)]
    · intro b _ hb
      rw [if_neg (fun h => hb (h i (by simp)).symm)]
    · intro hi'; exact absurd (Finset.mem_range.2 hi) hi'
  · rcases (by omega : nq size t.name = 0 ∨ nq size t.name = 1) with hk | hk
    · refine key (Diagram.id []) _ (by rw [hk, generateSpider, if_neg h1, if_pos (by rfl)]) (by rw [hk, Nat.mul_zero, Nat.mul_zero]; exact Den.ofId []) ?_
      intro x hx y hy
      rw [encTy_zero hk, encTy_zero hk, hk, if_pos rfl, pow_zero, Finset.sum_range_one, if_pos]
      intro c hc
      have hz : ∀ (n : Nat) (x : List Nat), x ∈ (circInterp size ar).idx (List.replicate n t) → ∀ c ∈ x, c = 0 := by
        intro n x hx
        rw [Interp.mem_idx] at hx
        induction n generalizing x with
        | zero => cases hx; simp
        | succ n ih =>
          rw [List.replicate_succ] at hx
          cases hx with
          | cons a b =>
            intro c hc
            rcases List.mem_cons.1 hc with rfl | hc
            · have a' : c < 2 ^ nq size t.name := a
              rw [hk] at a'; omega
            · exact ih _ b c hc
      rcases List.mem_append.1 hc with hc | hc
      exacts [hz _ _ hx c hc, hz _ _ hy c hc]
    · obtain ⟨p, e, hp, _⟩ := spiderQ_spec n m
      refine key p _ (by rw [hk, generateSpider, if_neg h1, if_neg (by simp [qubits]), if_neg (by simp [qubits]), e])
        (by rw [hk, Nat.mul_one, Nat.mul_one]; exact hp) ?_
      intro x hx y hy
      have lx := (circInterp size ar).length_of_mem hx
      have ly := (circInterp size ar).length_of_mem hy
      rw [List.length_replicate] at lx ly
      rw [encTy_one hk n x lx, encTy_one hk m y ly, hk]
      rfl

/-- Every supported box. -/
theorem supported_ok {b : Box} (h : Supported size ar b) (hd : ∀ o ∈ b.dom, (size o.name).isSome) (hc : ∀ o ∈ b.cod, (size o.name).isSome) :
    BoxOK (qFunctor size ar) tnCat.interp (circInterp size ar) (fun o => qubits (nq size o.name)) (encQ size) PureBox b := by
  have fin : ∀ {b : Box}, BoxDen size ar b → (∀ o ∈ b.dom, (size o.name).isSome) → (∀ o ∈ b.cod, (size o.name).isSome) →
      BoxOK (qFunctor size ar) tnCat.interp (circInterp size ar) (fun o => qubits (nq size o.name)) (encQ size) PureBox b := by
    intro b h hd hc
    obtain ⟨p, e, M, hp, _, hv⟩ := h
    exact boxOK_of_den e hp hd hc hv
  cases b with
  | gen n d c z => exact fin (gen_ok h hd hc) hd hc
  | word n c z => exact fin (word_ok h hc) hd hc
  | cup l r rev => exact cup_ok h (hd l (by simp [Box.dom])) (hd r (by simp [Box.dom]))
  | cap l r rev => exact cap_ok h (hc l (by simp [Box.cod])) (hc r (by simp [Box.cod]))
  | swap l r => exact swap_ok l r (hd l (by simp [Box.dom])) (hd r (by simp [Box.dom]))
  | spider t n m => exact spider_ok h.2 h.1
  | daggered b =>
    obtain ⟨h, n, d, c, z, rfl | rfl⟩ := h
    · exact fin (dagger_ok (gen_ok h hc hd) hc hd) hd hc
    · exact fin (dagger_ok (word_ok h hd) hc hd) hd hc

/-! ## C77 -/

/-- All atomic types of the diagram have a size and all its boxes are supported. -/
structure Drawable (size : String → Option Nat) (ar : Box → Except PyErr Circ) (d : GDiagram) : Prop where
  wt : d.WT
  dom : ∀ o ∈ d.dom, (size o.name).isSome
  boxes : ∀ b ∈ d.boxes, (∀ o ∈ b.dom ++ b.cod, (size o.name).isSome) ∧ Supported size ar b

theorem sized_chain {S : Ob → Prop} : ∀ (ls : List GLayer) (a c : Ty), Chain a ls c → (∀ o ∈ a, S o) → (∀ l ∈ ls, ∀ o ∈ l.box.dom ++ l.box.cod, S o) →
    (∀ l ∈ ls, (∀ o ∈ l.dom, S o) ∧ ∀ o ∈ l.cod, S o) ∧ ∀ o ∈ c, S o := by
  intro ls
  induction ls with
  | nil => intro a c hc ha _; cases hc; exact ⟨by simp, ha⟩
  | cons l ls ih =>
    intro a c hc ha hl
    obtain ⟨e, hc⟩ := hc
    subst e
    have h1 : ∀ o ∈ l.cod, S o := by
      intro o ho
      rcases List.mem_append.1 ho with ho | ho
      · rcases List.mem_append.1 ho with ho | ho
        · exact ha o (List.mem_append_left _ (List.mem_append_left _ ho))
        · exact hl l (by simp) o (List.mem_append_right _ ho)
      · exact ha o (List.mem_append_right _ ho)
    obtain ⟨h2, h3⟩ := ih l.cod c hc h1 (fun m hm => hl m (List.mem_cons_of_mem _ hm))
    refine ⟨fun m hm => ?_, h3⟩
    rcases List.mem_cons.1 hm with rfl | hm
    · exact ⟨ha, h1⟩
    · exact h2 m hm

theorem Drawable.cod {d : GDiagram} (h : Drawable size ar d) : ∀ o ∈ d.cod, (size o.name).isSome :=
  (sized_chain d.layers d.dom d.cod h.wt h.dom (fun l hl => (h.boxes l.box (List.mem_map_of_mem hl)).1)).2

/-- **C77.** A circuit functor maps a well-typed diagram of supported boxes to a well-typed circuit with the qubits of the types, and the amplitudes of that
circuit are the contraction of the amplitudes of the circuits of the boxes: basis state `n` of a type is the binary code of `n` on its qubits. -/
theorem C77_functor_partial (d : GDiagram) (h : Drawable size ar d) :
    ∃ c F, (qFunctor size ar).onDiagram d = .ok c ∧ c.WT ∧ c.dom = qubits (sizeOf' (nq size) d.dom) ∧ c.cod = qubits (sizeOf' (nq size) d.cod) ∧
      pureEval c = .ok F ∧ ∀ x ∈ (circInterp size ar).idx d.dom, ∀ y ∈ (circInterp size ar).idx d.cod,
        F (encTy (encQ size) d.dom x ++ encTy (encQ size) d.cod y) = (circInterp size ar).mat d x y := by
  have hs := sized_chain d.layers d.dom d.cod h.wt h.dom (fun l hl => (h.boxes l.box (List.mem_map_of_mem hl)).1)
  obtain ⟨hS, c, e, wc, dc, cc, hP, hv⟩ := onDiagram_ok (P := PureBox) (qEncodes (size := size) (ar := ar)) h.wt h.dom (fun l hl => by
    obtain ⟨h1, h2⟩ := h.boxes l.box (List.mem_map_of_mem hl)
    exact ⟨(hs.1 l hl).1, (hs.1 l hl).2, supported_ok h2 (fun o ho => h1 o (List.mem_append_left _ ho)) (fun o ho => h1 o (List.mem_append_right _ ho))⟩)
  rw [imageTy_qubits] at dc cc
  have hp : PureOK c := ⟨wc, hP⟩
  obtain ⟨F, f1, f2⟩ := hp.den.eval
  refine ⟨c, F, e, wc, dc, cc, f1, fun x hx y hy => ?_⟩
  rw [f2 _ _ (by rw [dc, qubits_length]; exact encTy_bits (ar := ar) h.dom hx) (by rw [cc, qubits_length]; exact encTy_bits (ar := ar) hS hy), hv x hx y hy]

/-- Every computational basis state of the qubits of a type is the code of a basis state of the type. -/
theorem encTy_surj {t : Ty} (ht : ∀ o ∈ t, (size o.name).isSome) {u : List Nat} (hu : Bits (sizeOf' (nq size) t) u) :
    ∃ x ∈ (circInterp size ar).idx t, encTy (encQ size) t x = u :=
  (qEncodes (size := size) (ar := ar)).surj_ty ht ((mem_idxQ dim_tn).2 (by rw [imageTy_qubits, qubits_length]; exact hu))

/-- The two diagrams have circuits of the same type with the same amplitudes. -/
def SameCircuits (size : String → Option Nat) (ar : Box → Except PyErr Circ) (d d' : GDiagram) : Prop :=
  ∃ c c' F F', (qFunctor size ar).onDiagram d = .ok c ∧ (qFunctor size ar).onDiagram d' = .ok c' ∧ c.dom = c'.dom ∧ c.cod = c'.cod ∧
    pureEval c = .ok F ∧ pureEval c' = .ok F' ∧ ∀ u v, Bits c.dom.length u → Bits c.cod.length v → F (u ++ v) = F' (u ++ v)

/-- **C77 (equal meanings).** Diagrams with the same meaning have circuits with the same amplitudes. -/
theorem C77_same_meaning (d d' : GDiagram) (hd : Drawable size ar d) (hd' : Drawable size ar d') (h : (circInterp size ar).SameMap d d') :
    SameCircuits size ar d d' := by
  obtain ⟨e1, e2, h⟩ := h
  obtain ⟨c, F, h1, h2, h3, h4, h5, h6⟩ := C77_functor_partial d hd
  obtain ⟨c', F', k1, k2, k3, k4, k5, k6⟩ := C77_functor_partial d' hd'
  refine ⟨c, c', F, F', h1, k1, by rw [h3, k3, e1], by rw [h4, k4, e2], h5, k5, fun u v hu hv => ?_⟩
  rw [h3, qubits_length] at hu
  rw [h4, qubits_length] at hv
  obtain ⟨x, hx, rfl⟩ := encTy_surj (ar := ar) hd.dom hu
  obtain ⟨y, hy, rfl⟩ := encTy_surj (ar := ar) hd.cod hv
  rw [h6 x hx y hy, h x hx y hy, e1, e2, k6 x (e1 ▸ hx) y (e2 ▸ hy)]

/-- **C77 (snake removal).** Removing snakes before applying the ansatz does not change the amplitudes of the circuit. -/
theorem C77_remove_snakes_partial (d : GDiagram) (rev : Bool) (hd : Drawable size ar d) (hv : d.Valid) (ho : GDiagram.OneOrientation d rev) :
    ∃ d', GDiagram.removeSnakes d = .ok d' ∧ SameCircuits size ar d d' := by
  obtain ⟨d', pairs, h1, h2, h3, h4, _, h6, _, h8⟩ := GDiagram.C25_remove_snakes_partial d rev hd.wt hv ho
  exact ⟨d', h1, C77_same_meaning d d' hd ⟨h2, h3 ▸ hd.dom, fun b hb => hd.boxes b (h6.mem_iff.2 (List.mem_append_left _ hb))⟩
    (h8 _ (hermInterp_snakeEqs _ _))⟩

/-- **C77 (normal form).** The same for `normal_form`, whenever it returns a diagram. -/
theorem C77_normal_form_partial (d : GDiagram) (left rev : Bool) (hd : Drawable size ar d) (hv : d.Valid) (ho : GDiagram.OneOrientation d rev) :
    ∃ N, ∀ n, N ≤ n → GDiagram.normalForm n left d = some (.error .notImplementedError) ∨
      ∃ d', GDiagram.normalForm n left d = some (.ok d') ∧ SameCircuits size ar d d' := by
  obtain ⟨N, hN⟩ := GDiagram.C26_normal_form_partial d left rev hd.wt hv ho
  refine ⟨N, fun n hn => (hN n hn).imp id ?_⟩
  rintro ⟨d', pairs, h1, h2, h3, h4, _, h6, _, h8⟩
  exact ⟨d', h1, C77_same_meaning d d' hd ⟨h2, h3 ▸ hd.dom, fun b hb => hd.boxes b (h6.mem_iff.2 (List.mem_append_left _ hb))⟩
    (h8 _ (hermInterp_snakeEqs _ _))⟩

theorem supported_origin {b : Box} (hb : DRewrite.isBend b = false) (hs : b.Simple) : Supported size ar b ↔ Supported size ar (DRewrite.origin b) := by
  have key : ∀ b : Box, DRewrite.isBend b = false → (∀ c, b ≠ .daggered c) → (Supported size ar b ↔ Supported size ar (DRewrite.origin b)) := by
    intro b hb hn
    cases b with
    | gen n d c z => simp only [DRewrite.origin, Supported, Int.neg_zero, Ty.rotate_zero]
    | word n c z => simp only [DRewrite.origin, Supported, Int.neg_zero, Ty.rotate_zero]
    | cup _ _ _ => simp [DRewrite.isBend] at hb
    | cap _ _ _ => simp [DRewrite.isBend] at hb
    | swap l r => simp only [DRewrite.origin]; split <;> exact Iff.rfl
    | spider t n m =>
      simp only [DRewrite.origin, Supported]
      have : (n = 1 ∧ m = 1) ↔ (min n m = 1 ∧ max n m = 1) := by omega
      rw [this]
    | daggered c => exact absurd rfl (hn c)
  cases b with
  | daggered c =>
    have hc : ∃ n d c' z, c = .gen n d c' z ∨ c = .word n c' z := by
      cases c with
      | gen n d c z => exact ⟨n, d, c, z, .inl rfl⟩
      | word n c z => exact ⟨n, [], c, z, .inr rfl⟩
      | _ => exact absurd hs (by simp [Box.Simple])
    show Supported size ar c ∧ _ ↔ Supported size ar (DRewrite.origin c)
    rw [← key c hb (by obtain ⟨n, d, c', z, rfl | rfl⟩ := hc <;> simp)]
    exact ⟨fun h => h.1, fun h => ⟨h, hc⟩⟩
  | _ => exact key _ hb (by simp)

theorem supported_simple {b : Box} (h : Supported size ar b) : b.Simple := by
  cases b with
  | daggered c =>
    obtain ⟨_, n, d, c', z, rfl | rfl⟩ := h <;> trivial
  | _ => trivial

/-- **C77 (removing cups).** Applying `RemoveCupsRewriter` before the ansatz does not change the amplitudes of the circuit, whenever it returns a diagram;
it does if the diagram has at most one cup or cap. -/
theorem C77_remove_cups_partial (d : GDiagram) (hd : Drawable size ar d) (hv : d.Valid) (ht : ∀ b ∈ d.boxes, DRewrite.baseName b ≠ "**CUP**") :
    (∀ r, DRewrite.removeCups d = .ok r → SameCircuits size ar d r) ∧ (DRewrite.bends d.boxes ≤ 1 → ∃ r, DRewrite.removeCups d = .ok r) := by
  obtain ⟨h, h'⟩ := DRewrite.C57_remove_cups_partial d hd.wt hv ht
  refine ⟨fun r hr => ?_, h'⟩
  obtain ⟨r1, r2, r3, r4, r5, r6, r7, r8, r9, _⟩ := h r hr
  have hnm := r8 (fun n => (size n).isSome) (fun b hb => ⟨supported_simple (hd.boxes b hb).2, (hd.boxes b hb).1⟩)
  refine C77_same_meaning d r hd ⟨r1, r3 ▸ hd.dom, fun b hb => ⟨(hnm b hb).2, ?_⟩⟩ (r9 _ (hermInterp_compact _ _))
  have hs := (hnm b hb).1
  by_cases hbe : DRewrite.isBend b = true
  · obtain ⟨l, hl, rfl⟩ := List.mem_map.1 hb
    have hv := r2 l hl
    cases hlb : l.box with
    | cup x y rev => rw [hlb] at hv; exact hv
    | cap x y rev => rw [hlb] at hv; exact hv
    | daggered c =>
      rw [hlb] at hs hbe
      cases c with
      | gen _ _ _ _ => simp [DRewrite.isBend] at hbe
      | word _ _ _ => simp [DRewrite.isBend] at hbe
      | _ => exact absurd hs (by simp [Box.Simple])
    | _ => rw [hlb] at hbe; simp [DRewrite.isBend] at hbe
  · have hbe : DRewrite.isBend b = false := by simpa using hbe
    rw [supported_origin hbe hs]
    have hm : DRewrite.origin b ∈ DRewrite.names r.boxes := List.mem_map.2 ⟨b, List.mem_filter.2 ⟨hb, by simp [hbe]⟩, rfl⟩
    obtain ⟨b', hb', e⟩ := List.mem_map.1 (r6.mem_iff.1 hm)
    obtain ⟨k1, k2⟩ := List.mem_filter.1 hb'
    rw [← e, ← supported_origin (by simpa using k2) (supported_simple (hd.boxes b' k1).2)]
    exact (hd.boxes b' k1).2

/-- **C77 (the ansätze).** The circuits of boxes and words made by the ansätze meet the hypotheses: with post-selection in a basis of gates that can be
conjugated, every box whose types have sizes has a circuit of the right type. -/
theorem C77_ansatz_boxes (A : Ansatz) (val : String → ℝ) (anc : Box → Int) (hr : A.rots ≠ []) (hdis : A.discard = false)
    {M : List Nat → List Nat → ℂ} (hb : Den A.basis [.qubit] [.qubit] M) (hbq : PureQ A.basis) (hbn : Nice A.basis)
    (b : Box) (hbox : ∃ n d c, b = .gen n d c 0 ∨ b = .word n c 0) (ht : ∀ o ∈ b.dom ++ b.cod, (A.obMap o.name).isSome) (hanc : 0 ≤ anc b)
    (hk : A.kind.OK A.nLayers (max (sizeOf' (nq A.obMap) b.dom) (sizeOf' (nq A.obMap) b.cod) + (anc b).toNat)) :
    WordOK A.obMap (A.arBox val anc) b := by
  have hmap : ∀ o ∈ b.dom ++ b.cod, A.obMap o.name = some (nq A.obMap o.name) := by
    intro o ho
    obtain ⟨k, hk⟩ := Option.isSome_iff_exists.1 (ht o ho)
    rw [nq, hk]; rfl
  obtain ⟨m, hm⟩ : ∃ m : Nat, anc b = m := ⟨(anc b).toNat, by omega⟩
  have key : ∀ label, ∃ p, A.ar val label b.dom b.cod (anc b) = .ok p ∧ PureOK p ∧ p.dom = qubits (sizeOf' (nq A.obMap) b.dom) ∧
      p.cod = qubits (sizeOf' (nq A.obMap) b.cod) ∧ Nice p := by
    intro label
    rw [hm, Int.toNat_natCast] at hk
    rw [C49_ar A (nq A.obMap) val label b.dom b.cod (anc b) hmap, hm]
    obtain ⟨c, F, h1, h2, h3, h4, _⟩ := C49_postselect A hr hdis hb hbq (fun i => val (label ++ "_" ++ toString i)) _ _ m hk
    exact ⟨c, h1, h2.pure, h3, h4, arSized_nice A hr hdis hbn _ _ _ _ hk h1⟩
  obtain ⟨n, d, c, rfl | rfl⟩ := hbox
  · obtain ⟨p, h⟩ := key (Label.label n d c)
    exact ⟨p, h⟩
  · obtain ⟨p, h⟩ := key (Label.label n [] c)
    exact ⟨p, h⟩

/-- **C77 (ansätze).** For every post-selecting ansatz, every well-typed diagram of plain boxes, words, cups, caps and swaps (at any winding number,
boxes and words also daggered) whose atomic types are in `ob_map`: the ansatz returns a well-typed circuit on the qubits of the types, whose amplitudes are
the contraction of the amplitudes of the circuits of the boxes. -/
theorem C77_ansatz_partial (A : Ansatz) (val : String → ℝ) (anc : Box → Int) (hr : A.rots ≠ []) (hdis : A.discard = false)
    {M : List Nat → List Nat → ℂ} (hb : Den A.basis [.qubit] [.qubit] M) (hbq : PureQ A.basis) (hbn : Nice A.basis)
    (d : GDiagram) (hd : d.WT) (hv : d.Valid) (hs : ∀ b ∈ d.boxes, b.Simple ∧ ∀ t n m, b ≠ .spider t n m)
    (ht : (∀ o ∈ d.dom, (A.obMap o.name).isSome) ∧ ∀ b ∈ d.boxes, ∀ o ∈ b.dom ++ b.cod, (A.obMap o.name).isSome)
    (hanc : ∀ b, 0 ≤ anc b) (hk : ∀ N, A.kind.OK A.nLayers N) :
    ∃ c F, A.apply val anc d = .ok c ∧ c.WT ∧ c.dom = qubits (sizeOf' (nq A.obMap) d.dom) ∧ c.cod = qubits (sizeOf' (nq A.obMap) d.cod) ∧
      pureEval c = .ok F ∧ ∀ x ∈ (circInterp A.obMap (A.arBox val anc)).idx d.dom, ∀ y ∈ (circInterp A.obMap (A.arBox val anc)).idx d.cod,
        F (encTy (encQ A.obMap) d.dom x ++ encTy (encQ A.obMap) d.cod y) = (circInterp A.obMap (A.arBox val anc)).mat d x y := by
  refine C77_functor_partial d ⟨hd, ht.1, fun b hb' => ⟨ht.2 b hb', ?_⟩⟩
  have base : ∀ b : Box, (∃ n d c, b = .gen n d c 0 ∨ b = .word n c 0) → (∀ o ∈ b.dom ++ b.cod, (A.obMap o.name).isSome) →
      WordOK A.obMap (A.arBox val anc) b := fun b h1 h2 =>
    C77_ansatz_boxes A val anc hr hdis hb hbq hbn b h1 h2 (hanc b) (hk _)
  have hg : ∀ n d c z, (∀ o ∈ d ++ c, (A.obMap o.name).isSome) → Supported A.obMap (A.arBox val anc) (.gen n d c z) := by
    intro n d c z h
    refine base _ ⟨n, _, _, .inl rfl⟩ (fun o ho => ?_)
    rcases List.mem_append.1 ho with ho | ho
    · exact isSome_rotate (fun o ho => h o (List.mem_append_left _ ho)) o ho
    · exact isSome_rotate (fun o ho => h o (List.mem_append_right _ ho)) o ho
  have hw : ∀ n c z, (∀ o ∈ c, (A.obMap o.name).isSome) → Supported A.obMap (A.arBox val anc) (.word n c z) := by
    intro n c z h
    refine base _ ⟨n, [], _, .inr rfl⟩ (fun o ho => ?_)
    exact isSome_rotate h o (by simpa [Box.dom, Box.cod] using ho)
  have h1 := ht.2 b hb'
  obtain ⟨h2, h3⟩ := hs b hb'
  obtain ⟨l, hl, rfl⟩ := List.mem_map.1 hb'
  have h4 := hv l hl
  generalize l.box = b at h1 h2 h3 h4
  cases b with
  | gen n d c z => exact hg n d c z h1
  | word n c z => exact hw n c z (by simpa [Box.dom, Box.cod] using h1)
  | cup l r rev => exact h4
  | cap l r rev => exact h4
  | swap l r => trivial
  | spider t n m => exact absurd rfl (h3 t n m)
  | daggered b =>
    cases b with
    | gen n d c z => exact ⟨hg n d c z (fun o ho => h1 o (List.mem_append.2 (List.mem_append.1 ho).symm)), n, d, c, z, .inl rfl⟩
    | word n c z => exact ⟨hw n c z (by simpa [Box.dom, Box.cod] using h1), n, [], c, z, .inr rfl⟩
    | _ => exact absurd h2 (by simp [Box.Simple])

/-- **C77 (spiders).** A spider on a type of more than one qubit, other than a wire, raises `NotImplementedError`: circuits have no spiders of these types. -/
theorem C77_refuted_spider (t : Ob) (n m k : Nat) (h : size t.name = some k) (hk : 2 ≤ k) (hnm : ¬ (n = 1 ∧ m = 1)) :
    (qFunctor size ar).onDiagram (ofBox (.spider t n m)) = .error .notImplementedError := by
  have e1 := onTy_one (size := size) (ar := ar) (o := t) (by rw [h]; rfl)
  have ek : nq size t.name = k := by rw [nq, h]; rfl
  rw [ek] at e1
  have hrep : ∀ n, ∃ a, (qFunctor size ar).onTy (List.replicate n t) = .ok a := by
    intro n
    induction n with
    | zero => exact ⟨[], rfl⟩
    | succ n ih =>
      obtain ⟨a, ha⟩ := ih
      obtain ⟨b, hb⟩ : ∃ b, (qFunctor size ar).onOb t = .ok b := by
        simp only [TFunctor.onOb, qFunctor, h]; exact ⟨_, rfl⟩
      exact ⟨b ++ a, by rw [List.replicate_succ, TFunctor.onTy, hb, ha]⟩
  obtain ⟨a, ha⟩ := hrep n
  have e2 : generateSpider (qubits k) n m = .error .notImplementedError := by
    rw [generateSpider, if_neg hnm, if_neg (by simp [qubits]; omega), if_pos ?_]
    intro h'
    have := congrArg List.length h'
    rw [qubits_length, List.length_singleton] at this
    omega
  have e3 : (qFunctor size ar).onBox (.spider t n m) = .error .notImplementedError := by
    rw [TFunctor.onBox, e1]
    show (generateSpider (qubits k) n m >>= _) = _
    rw [e2]; rfl
  show ((qFunctor size ar).onTy (List.replicate n t) >>= _) = _
  rw [ha]
  show ((List.foldlM (qFunctor size ar).layerStep (Diagram.id a) [⟨[], .spider t n m, []⟩]) >>= _) = _
  rw [List.foldlM_cons, TFunctor.layerStep, e3]
  rfl

/-- **C77 (unknown types).** A type that is not in `ob_map` raises `KeyError`. -/
theorem C77_unknown_type (d : GDiagram) (pre post : Ty) (o : Ob) (e : d.dom = pre ++ o :: post) (hp : ∀ p ∈ pre, (size p.name).isSome)
    (h : size o.name = none) : (qFunctor size ar).onDiagram d = .error .keyError := by
  have : (qFunctor size ar).onTy d.dom = .error .keyError := by
    rw [e]
    clear e
    induction pre with
    | nil => simp only [List.nil_append, TFunctor.onTy, TFunctor.onOb, qFunctor, h]
    | cons p pre ih =>
      obtain ⟨k, hk⟩ := Option.isSome_iff_exists.1 (hp p (by simp))
      have ho : ∃ b, (qFunctor size ar).onOb p = .ok b := by simp only [TFunctor.onOb, qFunctor, hk]; exact ⟨_, rfl⟩
      obtain ⟨b, hb⟩ := ho
      rw [List.cons_append, TFunctor.onTy, hb, ih (fun q hq => hp q (by simp [hq]))]
  rw [TFunctor.onDiagram, this]
  rfl

/-! ## Cases that meet the hypotheses -/

/-- "John sleeps". -/
def sleeps : GDiagram :=
  ⟨[], [⟨"s", 0⟩], [⟨[], .word "John" [⟨"n", 0⟩] 0, []⟩, ⟨[⟨"n", 0⟩], .word "sleeps" [⟨"n", 1⟩, ⟨"s", 0⟩] 0, []⟩,
    ⟨[], .cup ⟨"n", 0⟩ ⟨"n", 1⟩ false, [⟨"s", 0⟩]⟩]⟩

theorem sleeps_valid : sleeps.Valid := by
  intro l hl
  simp only [sleeps, List.mem_cons, List.not_mem_nil, or_false] at hl
  rcases hl with rfl | rfl | rfl
  · trivial
  · trivial
  · show Box.cupAdjoint _ _ _ = true; decide

theorem sleeps_sized : ∀ b ∈ sleeps.boxes, ∀ o ∈ b.dom ++ b.cod, (iqpExample.obMap o.name).isSome := by
  intro b hb o ho
  simp only [sleeps, Diagram.boxes, List.map_cons, List.map_nil, List.mem_cons, List.not_mem_nil, or_false] at hb
  rcases hb with rfl | rfl | rfl <;> simp [Box.dom, Box.cod] at ho <;> (try rcases ho with rfl | rfl) <;> rfl

/-- The circuit of "John sleeps" with the IQP ansatz is defined. -/
example (val : String → ℝ) : ∃ c, iqpExample.apply val (fun _ => 0) sleeps = .ok c ∧ c.WT ∧ c.dom = [] ∧ c.cod = [.qubit] := by
  obtain ⟨c, F, h1, h2, h3, h4, _⟩ := C77_ansatz_partial iqpExample val (fun _ => 0) (by simp [iqpExample]) rfl
    (M := tnCat.interp.mat iqpExample.basis) (PureQ.ofId 1).pure.den (PureQ.ofId 1) (Nice.ofId _) sleeps (by decide) sleeps_valid
    (by
      intro b hb
      simp only [sleeps, Diagram.boxes, List.map_cons, List.map_nil, List.mem_cons, List.not_mem_nil, or_false] at hb
      rcases hb with rfl | rfl | rfl <;> exact ⟨trivial, by simp⟩)
    ⟨by simp [sleeps], sleeps_sized⟩ (by simp) (fun _ => trivial)
  exact ⟨c, h1, h2, h3, by rw [h4]; rfl⟩

example : GDiagram.OneOrientation sleeps false := by
  intro b hb
  simp only [sleeps, Diagram.boxes, List.map_cons, List.map_nil, List.mem_cons, List.not_mem_nil, or_false] at hb
  intro x y r h
  rcases hb with rfl | rfl | rfl <;> simp at h
  exact h.2.2

end
end QBox
end Lambeq
