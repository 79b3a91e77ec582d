import Verif.Quantum.Box
import Mathlib.Tactic.IntervalCases

/-!
# Indices of qubit tensors

Lemmas on multi-indices of arrays all of whose axes have dimension two.
-/

namespace Lambeq
open Diagram
set_option linter.unusedSectionVars false
set_option linter.unusedSimpArgs false

/-- `x` is a list of `n` bits: a basis state of `n` qubits. -/
def Bits (n : Nat) (x : List Nat) : Prop := x.length = n ∧ ∀ b ∈ x, b < 2

theorem inShape_replicate (n k : Nat) (x : List Nat) : InShape (List.replicate n k) x ↔ x.length = n ∧ ∀ b ∈ x, b < k := by
  induction n generalizing x with
  | zero => cases x <;> simp [InShape]
  | succ n ih =>
    cases x with
    | nil => simp [InShape, List.replicate_succ]
    | cons a x =>
      have := ih x
      simp only [InShape, List.replicate_succ, List.forall₂_cons, List.length_cons, List.mem_cons, forall_eq_or_imp, Nat.add_right_cancel_iff] at this ⊢
      rw [this]; tauto

theorem bits_iff (n : Nat) (x : List Nat) : Bits n x ↔ InShape (List.replicate n 2) x := (inShape_replicate n 2 x).symm

theorem Bits.cons {n c : Nat} {x : List Nat} (hc : c < 2) (h : Bits n x) : Bits (n + 1) (c :: x) :=
  ⟨by simp [h.1], by intro b hb; rcases List.mem_cons.1 hb with rfl | hb; exacts [hc, h.2 b hb]⟩

theorem Bits.append {n m : Nat} {x y : List Nat} (h : Bits n x) (k : Bits m y) : Bits (n + m) (x ++ y) :=
  ⟨by simp [h.1, k.1], by intro b hb; rcases List.mem_append.1 hb with hb | hb; exacts [h.2 b hb, k.2 b hb]⟩

theorem Bits.split {n m : Nat} {z : List Nat} (h : Bits (n + m) z) : ∃ x y, z = x ++ y ∧ Bits n x ∧ Bits m y :=
  ⟨z.take n, z.drop n, (List.take_append_drop _ _).symm, ⟨by simp [h.1], fun b hb => h.2 b (List.mem_of_mem_take hb)⟩,
    ⟨by simp [h.1], fun b hb => h.2 b (List.mem_of_mem_drop hb)⟩⟩

theorem Bits.of_append {n m : Nat} {x y : List Nat} (h : Bits (n + m) (x ++ y)) (hx : x.length = n) : Bits n x ∧ Bits m y :=
  ⟨⟨hx, fun b hb => h.2 b (List.mem_append_left _ hb)⟩, ⟨by have := h.1; simp at this; omega, fun b hb => h.2 b (List.mem_append_right _ hb)⟩⟩

theorem Bits.uncons {n : Nat} {z : List Nat} (h : Bits (n + 1) z) : ∃ c x, z = c :: x ∧ c < 2 ∧ Bits n x := by
  cases z with
  | nil => simp [Bits] at h
  | cons c x => exact ⟨c, x, rfl, h.2 c (by simp), by simpa using h.1, fun b hb => h.2 b (List.mem_cons_of_mem _ hb)⟩

theorem Bits.nil : Bits 0 [] := ⟨rfl, by simp⟩

theorem Bits.eq_nil {z : List Nat} (h : Bits 0 z) : z = [] := List.length_eq_zero_iff.1 h.1

theorem Bits.one {b : Nat} (h : b < 2) : Bits 1 [b] := Bits.nil.cons h

theorem Bits.reverse {n : Nat} {x : List Nat} (h : Bits n x) : Bits n x.reverse := ⟨by simp [h.1], by simpa using h.2⟩

theorem ravel_append (s t i j : List Nat) (h : s.length = i.length) : ravel (s ++ t) (i ++ j) = ravel s i * t.prod + ravel t j := by
  induction s generalizing i with
  | nil =>
    obtain rfl : i = [] := List.length_eq_zero_iff.1 (by simpa using h.symm)
    simp [ravel]
  | cons a s ih =>
    cases i with
    | nil => simp at h
    | cons b i =>
      simp only [List.cons_append, ravel, List.prod_append]
      rw [ih i (by simpa using h)]
      ring

theorem ravel_inj {s i j : List Nat} (hi : InShape s i) (hj : InShape s j) (h : ravel s i = ravel s j) : i = j := by
  have e1 := NdArray.allIdx_ravel hi
  rw [h, NdArray.allIdx_ravel hj] at e1
  exact (Option.some.inj e1).symm

theorem ravel_bits_lt {n : Nat} {x : List Nat} (h : Bits n x) : ravel (List.replicate n 2) x < 2 ^ n := by
  have := NdArray.ravel_lt ((bits_iff n x).1 h)
  simpa using this

namespace QBox
noncomputable section

theorem qDims_eq (t : List QOb) : qDims t = List.replicate t.length 2 := by simp [qDims, List.map_const']

/-- The basis of a type of the quantum category. -/
theorem mem_idxQ {J : Interp QOb QBox ℂ} (hJ : ∀ o, J.dim o = 2) {t : List QOb} {y : List Nat} : y ∈ J.idx t ↔ Bits t.length y := by
  rw [J.mem_idx, bits_iff]
  induction t generalizing y with
  | nil => simp [InShape]
  | cons o t ih => cases y with
    | nil => simp [InShape, List.replicate_succ]
    | cons a y => simp [InShape, List.replicate_succ, hJ] at ih ⊢; rw [ih]; simp

theorem dim_tn (o : QOb) : tnCat.interp.dim o = 2 := rfl

theorem getD_zipWith_add (a b : List ℂ) (h : a.length = b.length) (k : Nat) (hk : k < a.length) :
    (List.zipWith (· + ·) a b).getD k default = a.getD k default + b.getD k default := by
  have hk' : k < b.length := h ▸ hk
  simp [List.getD_eq_getElem?_getD, List.getElem?_zipWith, List.getElem?_eq_getElem hk, List.getElem?_eq_getElem hk']

/-- The textbook controlled operator: the identity if the control is 0, the operator if it is 1; `c`, `c'` are the control bits and `x`, `y` the
target bits, before and after. -/
def ctrl (U : List Nat → List Nat → ℂ) (c : Nat) (x : List Nat) (c' : Nat) (y : List Nat) : ℂ :=
  if c = c' then (if c = 1 then U x y else if x = y then 1 else 0) else 0

theorem get_kron (a b : NdArray ℂ) (p q : Nat) (ha : a.shape = [2, 2]) (hb : b.shape = [p, q]) {i j k l : Nat} (hi : i < 2) (hj : j < 2) (hk : k < p) (hl : l < q) :
    (kron a b).get [i * p + k, j * q + l] = a.get [i, j] * b.get [k, l] := by
  have h1 : i * p + k < 2 * p := by nlinarith
  have h2 : j * q + l < 2 * q := by nlinarith
  have hp : 0 < p := by omega
  have hq : 0 < q := by omega
  rw [kron, ha, hb, NdArray.get_ofFn]
  · simp [Nat.mul_comm i p, Nat.mul_comm j q, Nat.mul_add_div hp, Nat.mul_add_div hq, Nat.div_eq_of_lt hk, Nat.div_eq_of_lt hl, Nat.mul_add_mod,
      Nat.mod_eq_of_lt hk, Nat.mod_eq_of_lt hl]
  · exact .cons (by simpa using h1) (.cons (by simpa using h2) .nil)

theorem kron_flat (a b : NdArray ℂ) (p q : Nat) (ha : a.shape = [2, 2]) (hb : b.shape = [p, q]) : (kron a b).flat.length = (2 * p) * (2 * q) := by
  simp [kron, NdArray.ofFn, NdArray.length_allIdx, ha, hb]

/-- The array of a controlled gate at distance one. -/
theorem controlledArray_spec (m : Nat) (a : NdArray ℂ) (hok : a.OK) (hs : a.shape = List.replicate (2 * m) 2) :
    ∃ A, controlledArray m a = .ok A ∧ A.OK ∧ A.shape = List.replicate (2 * (m + 1)) 2 ∧
      ∀ c x c' y, c < 2 → c' < 2 → Bits m x → Bits m y →
        A.get ((c :: x) ++ (c' :: y)) = ctrl (fun x y => a.get (x ++ y)) c x c' y := by
  have hlen : a.flat.length = 2 ^ m * 2 ^ m := by rw [hok, hs]; simp [two_mul, pow_add]
  set a2 : NdArray ℂ := ⟨[2 ^ m, 2 ^ m], a.flat⟩ with ha2
  have hr : a.reshape [2 ^ m, 2 ^ m] = .ok a2 := by simp [NdArray.reshape, hlen, ha2]
  set k1 := kron ⟨[2, 2], [1, 0, 0, 0]⟩ (eye (2 ^ m)) with hk1
  set k2 := kron ⟨[2, 2], [0, 0, 0, 1]⟩ a2 with hk2
  have l1 : k1.flat.length = (2 * 2 ^ m) * (2 * 2 ^ m) := kron_flat _ _ _ _ rfl rfl
  have l2 : k2.flat.length = (2 * 2 ^ m) * (2 * 2 ^ m) := kron_flat _ _ _ _ rfl rfl
  have hl : (add k1 k2).flat.length = (List.replicate (2 * (m + 1)) 2).prod := by
    simp [add, l1, l2, two_mul, pow_add]; ring
  refine ⟨⟨List.replicate (2 * (m + 1)) 2, (add k1 k2).flat⟩, ?_, hl, rfl, ?_⟩
  · simp only [controlledArray, hr, ← hk1, ← hk2]
    exact if_pos hl
  · intro c x c' y hc hc' hx hy
    have hX := ravel_bits_lt hx
    have hY := ravel_bits_lt hy
    set X := ravel (List.replicate m 2) x
    set Y := ravel (List.replicate m 2) y
    have hrav : ravel (List.replicate (2 * (m + 1)) 2) ((c :: x) ++ (c' :: y)) = ravel [2 * 2 ^ m, 2 * 2 ^ m] [c * 2 ^ m + X, c' * 2 ^ m + Y] := by
      rw [two_mul (m + 1), List.replicate_add, ravel_append _ _ _ _ (by simp [hx.1])]
      simp [List.replicate_succ, ravel, X, Y]
    have hpos : ravel [2 * 2 ^ m, 2 * 2 ^ m] [c * 2 ^ m + X, c' * 2 ^ m + Y] < k1.flat.length := by
      rw [l1]
      have h1 : c * 2 ^ m + X < 2 * 2 ^ m := by nlinarith
      have h2 : c' * 2 ^ m + Y < 2 * 2 ^ m := by nlinarith
      have := NdArray.ravel_lt (s := [2 * 2 ^ m, 2 * 2 ^ m]) (i := [c * 2 ^ m + X, c' * 2 ^ m + Y]) (.cons h1 (.cons h2 .nil))
      simpa using this
    have hg : NdArray.get ⟨List.replicate (2 * (m + 1)) 2, (add k1 k2).flat⟩ ((c :: x) ++ (c' :: y)) =
        k1.get [c * 2 ^ m + X, c' * 2 ^ m + Y] + k2.get [c * 2 ^ m + X, c' * 2 ^ m + Y] := by
      simp only [NdArray.get, hrav, add]
      exact getD_zipWith_add _ _ (by rw [l1, l2]) _ hpos
    have he : (eye (2 ^ m)).get [X, Y] = if x = y then 1 else 0 := by
      rw [eye, NdArray.get_ofFn _ _ (.cons hX (.cons hY .nil))]
      have : X = Y ↔ x = y := ⟨fun h => ravel_inj ((bits_iff m x).1 hx) ((bits_iff m y).1 hy) h, fun h => by simp only [X, Y, h]⟩
      simp [this]
    have ha : a2.get [X, Y] = a.get (x ++ y) := by
      simp only [NdArray.get, ha2, hs]
      congr 1
      rw [two_mul m, List.replicate_add, ravel_append _ _ _ _ (by simp [hx.1])]
      simp [ravel, X, Y]
    rw [hg, hk1, hk2, get_kron _ _ _ _ rfl rfl hc hc' hX hY, get_kron _ _ _ _ rfl rfl hc hc' hX hY, he, ha]
    unfold ctrl
    interval_cases c <;> interval_cases c' <;> simp [NdArray.get, ravel]

end
end QBox
end Lambeq
