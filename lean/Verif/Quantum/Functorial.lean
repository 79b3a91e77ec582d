import Verif.Quantum.Eval
import Verif.Tensor.EvalProps

/-!
# Evaluation of pure circuits is functorial (C75)

`Diagram.eval` (quantum.py:318-348) of a circuit without mixed boxes, with the default contractor.
-/

namespace Lambeq
open Diagram
set_option linter.unusedSectionVars false
set_option linter.unusedSimpArgs false

/-- All basis states of `n` qubits. -/
def allBits (n : Nat) : Finset (List Nat) := shapeIdx (List.replicate n 2)

theorem mem_allBits {n : Nat} {x : List Nat} : x ∈ allBits n ↔ Bits n x := by rw [allBits, mem_shapeIdx, bits_iff]

theorem sum_allBits_zero {R : Type} [AddCommMonoid R] (f : List Nat → R) : ∑ x ∈ allBits 0, f x = f [] := by simp [allBits, shapeIdx]

theorem sum_allBits_succ {R : Type} [AddCommMonoid R] (n : Nat) (f : List Nat → R) :
    ∑ x ∈ allBits (n + 1), f x = ∑ x ∈ allBits n, f (0 :: x) + ∑ x ∈ allBits n, f (1 :: x) := by
  have : allBits (n + 1) = (Finset.range 2 ×ˢ allBits n).image (fun p => p.1 :: p.2) := rfl
  rw [this, Finset.sum_image (by rintro ⟨a, b⟩ _ ⟨c, d⟩ _ h; simpa using h), Finset.sum_product]
  simp [Finset.sum_range_succ]

theorem sum_allBits_one {R : Type} [AddCommMonoid R] (f : List Nat → R) : ∑ x ∈ allBits 1, f x = f [0] + f [1] := by
  rw [sum_allBits_succ, sum_allBits_zero, sum_allBits_zero]

theorem sum_allBits_add {R : Type} [AddCommMonoid R] (n m : Nat) (f : List Nat → R) :
    ∑ x ∈ allBits (n + m), f x = ∑ x ∈ allBits n, ∑ y ∈ allBits m, f (x ++ y) := by
  induction n generalizing f with
  | zero => rw [Nat.zero_add, sum_allBits_zero]; rfl
  | succ n ih =>
    rw [Nat.add_right_comm, sum_allBits_succ, ih, ih, sum_allBits_succ]
    rfl

/-- A sum with a single term. -/
theorem sum_allBits_pick {R : Type} [AddCommMonoid R] {n : Nat} {x : List Nat} (hx : Bits n x) (f : List Nat → R)
    (h : ∀ z, Bits n z → z ≠ x → f z = 0) : ∑ z ∈ allBits n, f z = f x :=
  Finset.sum_eq_single x (fun z hz hne => h z (mem_allBits.1 hz) hne) (fun hn => absurd (mem_allBits.2 hx) hn)

namespace QBox
noncomputable section

theorem idx_allBits (t : List QOb) : tnCat.interp.idx t = allBits t.length := by
  ext y; rw [mem_idxQ dim_tn, mem_allBits]

theorem qubits_length (n : Nat) : (qubits n).length = n := by simp [qubits]

/-- The circuit is pure, has the type `a → c` and its value is the matrix `M`. -/
structure Den (d : Diagram QOb QBox) (a c : List QOb) (M : List Nat → List Nat → ℂ) : Prop where
  pure : PureOK d
  dom : d.dom = a
  cod : d.cod = c
  val : ∀ x y, Bits a.length x → Bits c.length y → tnCat.interp.mat d x y = M x y

theorem PureOK.den {d : Diagram QOb QBox} (h : PureOK d) : Den d d.dom d.cod (tnCat.interp.mat d) := ⟨h, rfl, rfl, fun _ _ _ _ => rfl⟩

theorem Den.congr {d : Diagram QOb QBox} {a c : List QOb} {M N : List Nat → List Nat → ℂ} (h : Den d a c M)
    (hN : ∀ x y, Bits a.length x → Bits c.length y → M x y = N x y) : Den d a c N :=
  ⟨h.pure, h.dom, h.cod, fun x y hx hy => (h.val x y hx hy).trans (hN x y hx hy)⟩

theorem Den.eval {d : Diagram QOb QBox} {a c : List QOb} {M : List Nat → List Nat → ℂ} (h : Den d a c M) :
    ∃ F, pureEval d = .ok F ∧ ∀ x y, Bits a.length x → Bits c.length y → F (x ++ y) = M x y := by
  obtain ⟨F, f1, f2⟩ := pureEval_spec h.pure
  exact ⟨F, f1, fun x y hx hy => by rw [f2 x y (h.dom ▸ hx) (h.cod ▸ hy), h.val x y hx hy]⟩

theorem PureOK.ofId (t : List QOb) : PureOK (Diagram.id t) := ⟨rfl, by simp [Diagram.id]⟩

theorem PureOK.ofBox {b : QBox} (h : b.Good ∨ ∃ x y, b = swap x y) : PureOK (ofBox b : Diagram QOb QBox) :=
  ⟨by simp [Diagram.ofBox, Diagram.WT, Chain, Layer.dom, Layer.cod], by simpa [Diagram.ofBox] using h⟩

theorem PureOK.comp {f g h : Diagram QOb QBox} (hf : PureOK f) (hg : PureOK g) (hc : andThen f g = .ok h) : PureOK h := by
  obtain ⟨h1, rfl⟩ := andThen_ok_iff.1 hc
  refine ⟨TnCat.chain_append hf.wt (h1 ▸ hg.wt), fun l hl => ?_⟩
  rcases List.mem_append.1 hl with hl | hl
  exacts [hf.boxes l hl, hg.boxes l hl]

theorem PureOK.tensor {f g : Diagram QOb QBox} (hf : PureOK f) (hg : PureOK g) : PureOK (tensor f g) := by
  refine ⟨?_, fun l hl => ?_⟩
  · rw [Diagram.WT, tensor_dom, tensor_cod, tensor_layers]
    have h1 := TnCat.chain_extend [] g.dom hf.wt
    have h2 := TnCat.chain_extend f.cod [] hg.wt
    simp only [List.nil_append, List.append_nil] at h1 h2
    exact TnCat.chain_append h1 h2
  · rw [tensor_layers] at hl
    rcases List.mem_append.1 hl with hl | hl
    · obtain ⟨l', h', rfl⟩ := List.mem_map.1 hl; exact hf.boxes l' h'
    · obtain ⟨l', h', rfl⟩ := List.mem_map.1 hl; exact hg.boxes l' h'

theorem Den.ofId (t : List QOb) : Den (Diagram.id t) t t (fun x y => if y = x then 1 else 0) := ⟨PureOK.ofId t, rfl, rfl, fun _ _ _ _ => rfl⟩

theorem Den.ofBox {b : QBox} (h : b.Good) {a : NdArray ℂ} (ha : b.array = .ok a) : Den (ofBox b) b.dom b.cod (fun x y => a.get (x ++ y)) :=
  ⟨PureOK.ofBox (.inl h), rfl, rfl, fun x y hx hy => by
    rw [Interp.mat_ofBox _ _ ((mem_idxQ dim_tn).2 hx) ((mem_idxQ dim_tn).2 hy), tnCat_std.ten h.kind ha]⟩

theorem Den.ofSwap (p q : QOb) : Den (Diagram.ofBox (swap p q)) [p, q] [q, p] (fun x y => if y = x.reverse then 1 else 0) :=
  ⟨PureOK.ofBox (.inr ⟨p, q, rfl⟩), rfl, rfl, fun x y hx hy => by
    rw [Interp.mat_ofBox _ _ ((mem_idxQ dim_tn).2 hx) ((mem_idxQ dim_tn).2 hy)]; rfl⟩

theorem Den.comp {f g : Diagram QOb QBox} {a b c : List QOb} {M N : List Nat → List Nat → ℂ} (hf : Den f a b M) (hg : Den g b c N) :
    ∃ h, andThen f g = .ok h ∧ Den h a c (fun x y => ∑ z ∈ allBits b.length, M x z * N z y) := by
  have hc := andThen_ok_iff.2 ⟨hf.cod.trans hg.dom.symm, rfl⟩
  refine ⟨_, hc, hf.pure.comp hg.pure hc, hf.dom, hg.cod, fun x y hx hy => ?_⟩
  rw [Interp.mat_comp _ hg.pure.wt hc x ((mem_idxQ dim_tn).2 (hg.cod ▸ hy)), hf.cod, idx_allBits]
  exact Finset.sum_congr rfl (fun z hz => by rw [hf.val x z hx (mem_allBits.1 hz), hg.val z y (mem_allBits.1 hz) hy])

theorem Den.tensor {f g : Diagram QOb QBox} {a b c d : List QOb} {M N : List Nat → List Nat → ℂ} (hf : Den f a b M) (hg : Den g c d N) :
    Den (tensor f g) (a ++ c) (b ++ d) (fun x y => M (x.take a.length) (y.take b.length) * N (x.drop a.length) (y.drop b.length)) := by
  refine ⟨hf.pure.tensor hg.pure, by rw [tensor_dom, hf.dom, hg.dom], by rw [tensor_cod, hf.cod, hg.cod], fun x y hx hy => ?_⟩
  rw [List.length_append] at hx hy
  obtain ⟨x, x', rfl, hx, hx'⟩ := hx.split
  obtain ⟨y, y', rfl, hy, hy'⟩ := hy.split
  rw [Interp.mat_tensor _ hf.pure.wt hg.pure.wt ((mem_idxQ dim_tn).2 (hf.dom ▸ hx)) ((mem_idxQ dim_tn).2 (hg.dom ▸ hx'))
    ((mem_idxQ dim_tn).2 (hf.cod ▸ hy)) ((mem_idxQ dim_tn).2 (hg.cod ▸ hy')), hf.val x y hx hy, hg.val x' y' hx' hy',
    List.take_left' hx.1, List.take_left' hy.1, List.drop_left' hx.1, List.drop_left' hy.1]

/-! ## C75 -/

/-- **C75 (totality).** Every well-typed circuit of swaps and boxes that have an array evaluates. -/
theorem C75_total {d : Diagram QOb QBox} (h : PureOK d) : ∃ F, pureEval d = .ok F := let ⟨F, f, _⟩ := pureEval_spec h; ⟨F, f⟩

/-- **C75 (identity).** -/
theorem C75_id (t : List QOb) {F : List Nat → ℂ} (hF : pureEval (Diagram.id t) = .ok F) :
    ∀ x y, Bits t.length x → Bits t.length y → F (x ++ y) = if x = y then 1 else 0 := by
  obtain ⟨G, g1, g2⟩ := (Den.ofId t).eval
  cases g1.symm.trans hF
  intro x y hx hy
  rw [g2 x y hx hy]; simp [eq_comm]

/-- **C75 (boxes).** -/
theorem C75_box {b : QBox} (h : b.Good) {F : List Nat → ℂ} (hF : pureEval (ofBox b) = .ok F) :
    ∃ a, b.array = .ok a ∧ ∀ x y, Bits b.dom.length x → Bits b.cod.length y → F (x ++ y) = a.get (x ++ y) := by
  obtain ⟨a, ea, _⟩ := h.array_ok
  obtain ⟨G, g1, g2⟩ := (Den.ofBox h ea).eval
  cases g1.symm.trans hF
  exact ⟨a, ea, g2⟩

/-- **C75 (swaps).** -/
theorem C75_swap (p q : QOb) {F : List Nat → ℂ} (hF : pureEval (ofBox (swap p q)) = .ok F) :
    ∀ a b c d, a < 2 → b < 2 → c < 2 → d < 2 → F [a, b, c, d] = if c = b ∧ d = a then 1 else 0 := by
  obtain ⟨G, g1, g2⟩ := (Den.ofSwap p q).eval
  cases g1.symm.trans hF
  intro a b c d ha hb hc hd
  have := g2 [a, b] [c, d] ((Bits.one hb).cons ha) ((Bits.one hd).cons hc)
  simp only [List.cons_append, List.nil_append] at this
  rw [this]; simp

/-- **C75 (composition).** `f >> g` evaluates to the matrix product. -/
theorem C75_comp {f g h : Diagram QOb QBox} (hf : PureOK f) (hg : PureOK g) (hc : andThen f g = .ok h) {F G H : List Nat → ℂ}
    (hF : pureEval f = .ok F) (hG : pureEval g = .ok G) (hH : pureEval h = .ok H) :
    ∀ x z, Bits f.dom.length x → Bits g.cod.length z → H (x ++ z) = ∑ y ∈ allBits f.cod.length, F (x ++ y) * G (y ++ z) := by
  have hd : f.cod = g.dom := (andThen_ok_iff.1 hc).1
  obtain ⟨F', f1, f2⟩ := hf.den.eval
  obtain ⟨G', g1, g2⟩ := hg.den.eval
  obtain ⟨h', e, hD⟩ := hf.den.comp (hd ▸ hg.den)
  cases e.symm.trans hc
  obtain ⟨H', h1, h2⟩ := hD.eval
  cases f1.symm.trans hF
  cases g1.symm.trans hG
  cases h1.symm.trans hH
  intro x z hx hz
  rw [h2 x z hx hz]
  exact Finset.sum_congr rfl (fun y hy => by rw [f2 x y hx (mem_allBits.1 hy), g2 y z (hd ▸ mem_allBits.1 hy) hz])

/-- **C75 (tensor).** `f @ g` evaluates to the Kronecker product. -/
theorem C75_tensor {f g : Diagram QOb QBox} (hf : PureOK f) (hg : PureOK g) {F G H : List Nat → ℂ}
    (hF : pureEval f = .ok F) (hG : pureEval g = .ok G) (hH : pureEval (tensor f g) = .ok H) :
    ∀ x x' y y', Bits f.dom.length x → Bits g.dom.length x' → Bits f.cod.length y → Bits g.cod.length y' →
      H ((x ++ x') ++ (y ++ y')) = F (x ++ y) * G (x' ++ y') := by
  obtain ⟨F', f1, f2⟩ := hf.den.eval
  obtain ⟨G', g1, g2⟩ := hg.den.eval
  obtain ⟨H', h1, h2⟩ := (hf.den.tensor hg.den).eval
  cases f1.symm.trans hF
  cases g1.symm.trans hG
  cases h1.symm.trans hH
  intro x x' y y' hx hx' hy hy'
  rw [h2 (x ++ x') (y ++ y') (by rw [List.length_append]; exact hx.append hx') (by rw [List.length_append]; exact hy.append hy'),
    f2 x y hx hy, g2 x' y' hx' hy', List.take_left' hx.1, List.take_left' hy.1, List.drop_left' hx.1, List.drop_left' hy.1]

end
end QBox
end Lambeq
