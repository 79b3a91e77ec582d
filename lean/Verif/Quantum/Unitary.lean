import Verif.Quantum.MixedTheorems
import Mathlib.LinearAlgebra.Matrix.NonsingularInverse
import Mathlib.Analysis.SpecialFunctions.Trigonometric.Basic

/-!
# Unitary circuits, trace preservation and probabilities (C73)

Facts about `Diagram.eval` (quantum.py:278-410 with 466-586) of circuits made of the gates, preparations, measurements and discards of quantum.py.
No new code is modelled here.
-/

namespace Lambeq
open Diagram
set_option linter.unusedSectionVars false
set_option linter.unusedSimpArgs false

namespace QBox
noncomputable section

/-- The array of the box is an isometry: the rows (images of the basis states) are orthonormal. -/
def Isometric (b : QBox) : Prop :=
  ∀ a, b.array = .ok a → ∀ x x', Bits b.dom.length x → Bits b.dom.length x' →
    ∑ y ∈ allBits b.cod.length, a.get (x ++ y) * star (a.get (x' ++ y)) = if x = x' then 1 else 0

/-! ## Boxes -/

theorem bits_one {x : List Nat} (h : Bits 1 x) : x = [0] ∨ x = [1] := by
  obtain ⟨h1, h2⟩ := h
  match x, h1 with
  | [a], _ =>
    have := h2 a (by simp)
    have : a = 0 ∨ a = 1 := by omega
    rcases this with rfl | rfl <;> simp

/-- A gate on one wire is isometric if its two rows are orthonormal. -/
theorem isometric_one {b : QBox} {p q r s : ℂ} (hd : b.dom.length = 1) (hc : b.cod.length = 1) (ha : b.array = .ok ⟨[2, 2], [p, q, r, s]⟩)
    (h00 : p * star p + q * star q = 1) (h11 : r * star r + s * star s = 1) (h01 : p * star r + q * star s = 0) : Isometric b := by
  intro a ha' x x' hx hx'
  cases ha.symm.trans ha'
  rw [hd] at hx hx'
  rw [hc, sum_allBits_one]
  have h10 : r * star p + s * star q = 0 := by
    have := congrArg star h01
    simpa [mul_comm] using this
  rcases bits_one hx with rfl | rfl <;> rcases bits_one hx' with rfl | rfl <;>
    simpa [NdArray.get, ravel] using by assumption

theorem isometric_ket (b : Bool) : Isometric (ket b) := by
  intro a ha x x' hx hx'
  cases ha
  obtain rfl : x = [] := List.length_eq_zero_iff.1 hx.1
  obtain rfl : x' = [] := List.length_eq_zero_iff.1 hx'.1
  show ∑ y ∈ allBits 1, _ = _
  rw [sum_allBits_one]
  cases b <;> simp [NdArray.get, ravel]

theorem isometric_rot (ax : Axis) (θ : ℝ) : Isometric (rot ax θ) := by
  have hs : star (Complex.sin (Real.pi * θ)) = Complex.sin (Real.pi * θ) := by
    rw [← Complex.ofReal_mul, ← Complex.ofReal_sin]; exact Complex.conj_ofReal _
  have hc : star (Complex.cos (Real.pi * θ)) = Complex.cos (Real.pi * θ) := by
    rw [← Complex.ofReal_mul, ← Complex.ofReal_cos]; exact Complex.conj_ofReal _
  have h1 := Complex.sin_sq_add_cos_sq (Real.pi * θ : ℂ)
  have hI : star Complex.I = -Complex.I := Complex.conj_I
  have hII := Complex.I_mul_I
  have e1 : star (Complex.exp (-Complex.I * (Real.pi * θ))) = Complex.exp (Complex.I * (Real.pi * θ)) := by
    show (starRingEnd ℂ) _ = _
    rw [← Complex.exp_conj]; congr 1; simp
  have e2 : star (Complex.exp (Complex.I * (Real.pi * θ))) = Complex.exp (-Complex.I * (Real.pi * θ)) := by
    show (starRingEnd ℂ) _ = _
    rw [← Complex.exp_conj]; congr 1; simp
  have e3 : Complex.exp (-Complex.I * (Real.pi * θ)) * Complex.exp (Complex.I * (Real.pi * θ)) = 1 := by
    rw [← Complex.exp_add]; simp
  set si := Complex.sin (Real.pi * θ) with hsi
  set co := Complex.cos (Real.pi * θ) with hco
  cases ax
  · refine isometric_one (b := rot .x θ) (p := _) (q := _) (r := _) (s := _) rfl rfl rfl ?_ ?_ ?_ <;>
      simp only [← hsi, ← hco, star_sub, star_mul', star_one, star_zero, hs, hc, hI]
    · linear_combination h1 - si ^ 2 * hII
    · linear_combination h1 - si ^ 2 * hII
    · ring
  · refine isometric_one (b := rot .y θ) (p := _) (q := _) (r := _) (s := _) rfl rfl rfl ?_ ?_ ?_ <;>
      simp only [← hsi, ← hco, star_sub, star_mul', star_one, star_zero, hs, hc, hI, star_neg]
    · linear_combination h1 + si ^ 2 * (Complex.I * Complex.I - 1) * hII
    · linear_combination h1 + si ^ 2 * (Complex.I * Complex.I - 1) * hII
    · ring
  · refine isometric_one (b := rot .z θ) (p := _) (q := _) (r := _) (s := _) rfl rfl rfl ?_ ?_ ?_ <;>
      simp only [star_add, star_mul', star_one, star_zero, e1, e2]
    · linear_combination e3
    · linear_combination e3
    · ring

theorem isometric_gates : Isometric H ∧ Isometric S ∧ Isometric T ∧ Isometric X ∧ Isometric Y ∧ Isometric Z := by
  have hI : star Complex.I = -Complex.I := Complex.conj_I
  have hII := Complex.I_mul_I
  have hT : Complex.exp (Complex.I * Real.pi / 4) * star (Complex.exp (Complex.I * Real.pi / 4)) = 1 := by
    show _ * (starRingEnd ℂ) _ = _
    rw [← Complex.exp_conj, ← Complex.exp_add]
    have : Complex.I * Real.pi / 4 + (starRingEnd ℂ) (Complex.I * Real.pi / 4) = 0 := by
      rw [map_div₀, map_mul, Complex.conj_I, Complex.conj_ofReal, show (starRingEnd ℂ) 4 = 4 from Complex.conj_ofNat 4]; ring
    rw [this, Complex.exp_zero]
  have hr : star (((Real.sqrt 2)⁻¹ : ℝ) : ℂ) = ((Real.sqrt 2)⁻¹ : ℝ) := Complex.conj_ofReal _
  have hq : (((Real.sqrt 2)⁻¹ : ℝ) : ℂ) * ((Real.sqrt 2)⁻¹ : ℝ) = 1 / 2 := by
    rw [← Complex.ofReal_mul, ← mul_inv, Real.mul_self_sqrt (by norm_num)]; norm_num
  set w : ℂ := (((Real.sqrt 2)⁻¹ : ℝ) : ℂ) with hw
  refine ⟨?_, ?_, ?_, ?_, ?_, ?_⟩
  · refine isometric_one (b := H) (p := w * 1) (q := w * 1) (r := w * 1) (s := w * (-1)) rfl rfl (by simp [H, array, TBox.array, qDims, NdArray.reshape, hw]) ?_ ?_ ?_ <;>
      simp only [star_mul', star_one, star_neg, hr]
    · linear_combination 2 * hq
    · linear_combination 2 * hq
    · ring
  · refine isometric_one (b := S) (p := 1) (q := 0) (r := 0) (s := Complex.I) rfl rfl (by simp [S, array, TBox.array, qDims, NdArray.reshape]) ?_ ?_ ?_ <;>
      simp [hI]
  · refine isometric_one (b := T) (p := 1) (q := 0) (r := 0) (s := _) rfl rfl (by simp [T, array, TBox.array, qDims, NdArray.reshape]; rfl) ?_ ?_ ?_
    · simp
    · simpa using hT
    · simp
  · refine isometric_one (b := X) (p := 0) (q := 1) (r := 1) (s := 0) rfl rfl (by simp [X, array, TBox.array, qDims, NdArray.reshape]) ?_ ?_ ?_ <;> simp
  · refine isometric_one (b := Y) (p := 0) (q := Complex.I) (r := -Complex.I) (s := 0) rfl rfl (by simp [Y, array, TBox.array, qDims, NdArray.reshape]) ?_ ?_ ?_ <;>
      simp [hI]
  · refine isometric_one (b := Z) (p := 1) (q := 0) (r := 0) (s := -1) rfl rfl (by simp [Z, array, TBox.array, qDims, NdArray.reshape]) ?_ ?_ ?_ <;> simp

/-- Orthonormal rows stay orthonormal when a control is added. -/
theorem isometric_ctrl {m : Nat} {U : List Nat → List Nat → ℂ}
    (hU : ∀ x x', Bits m x → Bits m x' → ∑ y ∈ allBits m, U x y * star (U x' y) = if x = x' then 1 else 0) {c c' : Nat} {t t' : List Nat}
    (hc : c < 2) (hc' : c' < 2) (ht : Bits m t) (ht' : Bits m t') :
    (∑ y ∈ allBits m, ctrl U c t 0 y * star (ctrl U c' t' 0 y)) + ∑ y ∈ allBits m, ctrl U c t 1 y * star (ctrl U c' t' 1 y) =
      if c = c' ∧ t = t' then 1 else 0 := by
  have hid : ∑ y ∈ allBits m, (if t = y then (1 : ℂ) else 0) * star (if t' = y then (1 : ℂ) else 0) = if t = t' then 1 else 0 := by
    rw [sum_allBits_pick ht _ (fun z _ hne => by rw [if_neg (Ne.symm hne), zero_mul])]
    by_cases h : t = t' <;> simp [h, eq_comm]
  have hc2 : c = 0 ∨ c = 1 := by omega
  have hc2' : c' = 0 ∨ c' = 1 := by omega
  rcases hc2 with rfl | rfl <;> rcases hc2' with rfl | rfl
  · simpa [ctrl] using hid
  · simp [ctrl]
  · simp [ctrl]
  · simpa [ctrl] using hU t t' ht ht'

theorem isometric_controlled {u : QBox} {d : Int} (hg : (controlled u d).Good) (hu : Isometric u) : Isometric (controlled u d) := by
  obtain ⟨hd, gu, hl⟩ := hg
  obtain ⟨a, ea, oka, sa⟩ := gu.array_ok
  obtain ⟨A, eA, okA, sA, hA⟩ := array_controlled_spec u d hd ea oka (by rw [sa, hl, ← two_mul])
  intro A' eA' x x' hx hx'
  cases eA.symm.trans eA'
  have hdl : (controlled u d).dom.length = u.dom.length + d.natAbs := by simp [dom, sig, qubits]
  have hcl : (controlled u d).cod.length = u.dom.length + d.natAbs := by simp [dom, cod, sig, qubits]
  rw [hdl] at hx hx'
  rw [hcl]
  have hU : ∀ x x', Bits u.dom.length x → Bits u.dom.length x' →
      ∑ y ∈ allBits u.dom.length, a.get (x ++ y) * star (a.get (x' ++ y)) = if x = x' then 1 else 0 := by
    intro x x' hx hx'
    have := hu a ea x x' hx hx'
    rwa [hl] at this
  set m := u.dom.length with hm
  obtain ⟨k, hk⟩ : ∃ k, d.natAbs = k + 1 := ⟨d.natAbs - 1, by omega⟩
  obtain ⟨c, s, t, hs1, ht1⟩ := ctrlSplit_exists hd hx
  obtain ⟨c', s', t', hs2, ht2⟩ := ctrlSplit_exists hd hx'
  obtain ⟨bc, bt⟩ := ctrlSplit_bits ht1 hx hs1
  obtain ⟨bc', bt'⟩ := ctrlSplit_bits ht2 hx' hs2
  have bs : Bits k s := by
    refine ⟨by have := hs1.1; omega, fun b hb => hx.2 b ?_⟩
    rw [hs1.2]; split <;> simp [hb]
  have bs' : Bits k s' := by
    refine ⟨by have := hs2.1; omega, fun b hb => hx'.2 b ?_⟩
    rw [hs2.2]; split <;> simp [hb]
  -- the sum over the outputs is a sum over their parts
  have hsum : ∀ f : List Nat → ℂ, ∑ y ∈ allBits (m + d.natAbs), f y =
      ∑ v ∈ allBits k, ((∑ w ∈ allBits m, f (if d > 0 then 0 :: (v ++ w) else w ++ v ++ [0])) + ∑ w ∈ allBits m, f (if d > 0 then 1 :: (v ++ w) else w ++ v ++ [1])) := by
    intro f
    by_cases h : d > 0
    · simp only [if_pos h]
      rw [hk, show m + (k + 1) = (k + m) + 1 by omega, sum_allBits_succ, sum_allBits_add, sum_allBits_add, Finset.sum_add_distrib]
    · simp only [if_neg h]
      rw [hk, ← Nat.add_assoc, sum_allBits_add (m + k) 1, sum_allBits_add m k, Finset.sum_comm]
      refine Finset.sum_congr rfl (fun v _ => ?_)
      rw [← Finset.sum_add_distrib]
      exact Finset.sum_congr rfl (fun w _ => sum_allBits_one _)
  have hval : ∀ (e : Nat) (v w : List Nat), e < 2 → Bits k v → Bits m w →
      A.get (x ++ (if d > 0 then e :: (v ++ w) else w ++ v ++ [e])) * star (A.get (x' ++ (if d > 0 then e :: (v ++ w) else w ++ v ++ [e]))) =
        if s = v ∧ s' = v then ctrl (fun x y => a.get (x ++ y)) c t e w * star (ctrl (fun x y => a.get (x ++ y)) c' t' e w) else 0 := by
    intro e v w he hv hw
    have hy : CtrlSplit d (if d > 0 then e :: (v ++ w) else w ++ v ++ [e]) e v w := ⟨by rw [hv.1, hk], rfl⟩
    have hyb : Bits (m + d.natAbs) (if d > 0 then e :: (v ++ w) else w ++ v ++ [e]) := by
      refine ⟨by split <;> simp [hv.1, hw.1] <;> omega, fun b hb => ?_⟩
      have : b = e ∨ b ∈ v ∨ b ∈ w := by split at hb <;> simp at hb <;> tauto
      rcases this with rfl | h | h
      · exact he
      · exact hv.2 b h
      · exact hw.2 b h
    rw [hA _ _ _ _ _ _ _ _ ht1 hw.1 hx hyb hs1 hy, hA _ _ _ _ _ _ _ _ ht2 hw.1 hx' hyb hs2 hy]
    by_cases h1 : s = v <;> by_cases h2 : s' = v <;> simp [h1, h2]
  rw [hsum]
  have : ∀ v ∈ allBits k, ((∑ w ∈ allBits m, A.get (x ++ (if d > 0 then 0 :: (v ++ w) else w ++ v ++ [0])) * star (A.get (x' ++ (if d > 0 then 0 :: (v ++ w) else w ++ v ++ [0])))) +
      ∑ w ∈ allBits m, A.get (x ++ (if d > 0 then 1 :: (v ++ w) else w ++ v ++ [1])) * star (A.get (x' ++ (if d > 0 then 1 :: (v ++ w) else w ++ v ++ [1])))) =
      if s = v ∧ s' = v then (if c = c' ∧ t = t' then 1 else 0) else 0 := by
    intro v hv
    have hv := mem_allBits.1 hv
    rw [Finset.sum_congr rfl (fun w hw => hval 0 v w (by omega) hv (mem_allBits.1 hw)),
      Finset.sum_congr rfl (fun w hw => hval 1 v w (by omega) hv (mem_allBits.1 hw))]
    by_cases h : s = v ∧ s' = v
    · simp only [if_pos h]
      exact isometric_ctrl hU bc bc' bt bt'
    · simp only [if_neg h]; simp
  rw [Finset.sum_congr rfl this, sum_allBits_pick bs _ (fun z _ hne => by rw [if_neg (fun h => hne h.1.symm)])]
  have hxx : x = x' ↔ c = c' ∧ s = s' ∧ t = t' := by
    rw [hs1.2, hs2.2]
    split
    · rw [List.cons.injEq]
      exact and_congr_right (fun _ => ⟨fun h => List.append_inj h (by rw [bs.1, bs'.1]), fun h => by rw [h.1, h.2]⟩)
    · constructor
      · intro h
        obtain ⟨h1, h2⟩ := List.append_inj h (by simp [bs.1, bs'.1, bt.1, bt'.1])
        obtain ⟨h3, h4⟩ := List.append_inj h1 (by rw [bt.1, bt'.1])
        exact ⟨by simpa using h2, h4, h3⟩
      · rintro ⟨rfl, rfl, rfl⟩; rfl
  by_cases h : s = s'
  · subst h; simp [hxx]
  · rw [if_neg (fun hh => h hh.2.symm), if_neg (fun hh => h (hxx.1 hh).2.1)]

/-- The square matrices with orthonormal rows have orthonormal columns. -/
theorem isometric_square {n : Nat} {U : List Nat → List Nat → ℂ}
    (hU : ∀ x x', Bits n x → Bits n x' → ∑ y ∈ allBits n, U x y * star (U x' y) = if x = x' then 1 else 0) :
    ∀ y y', Bits n y → Bits n y' → ∑ x ∈ allBits n, U x y * star (U x y') = if y = y' then 1 else 0 := by
  intro y y' hy hy'
  let M : Matrix {x // x ∈ allBits n} {x // x ∈ allBits n} ℂ := fun x y => U x y
  have h1 : M * M.conjTranspose = 1 := by
    ext i j
    rw [Matrix.mul_apply, Matrix.one_apply]
    have := hU i j (mem_allBits.1 i.2) (mem_allBits.1 j.2)
    rw [← Finset.sum_coe_sort] at this
    exact this.trans (if_congr Subtype.ext_iff.symm rfl rfl)
  have h2 : M.conjTranspose * M = 1 := mul_eq_one_comm.1 h1
  have h3 := congrFun (congrFun h2 ⟨y', mem_allBits.2 hy'⟩) ⟨y, mem_allBits.2 hy⟩
  rw [Matrix.mul_apply, Matrix.one_apply] at h3
  rw [← Finset.sum_coe_sort]
  refine Eq.trans ?_ (h3.trans (if_congr (Subtype.ext_iff.trans eq_comm) rfl rfl))
  exact Finset.sum_congr rfl (fun x _ => mul_comm _ _)

/-- `Daggered` of a square gate with orthonormal rows has orthonormal rows. -/
theorem isometric_daggered {b : QBox} (hg : b.Good) (hl : b.cod.length = b.dom.length) (hb : Isometric b) : Isometric (daggered b) := by
  obtain ⟨a, ea, oka, sa⟩ := hg.array_ok
  intro A eA x x' hx hx'
  have hd : (daggered b).dom = b.cod := rfl
  have hc : (daggered b).cod = b.dom := rfl
  rw [hd] at hx hx'
  rw [hc]
  have hU : ∀ x x', Bits b.dom.length x → Bits b.dom.length x' →
      ∑ y ∈ allBits b.dom.length, a.get (x ++ y) * star (a.get (x' ++ y)) = if x = x' then 1 else 0 := by
    intro x x' hx hx'
    have := hb a ea x x' hx hx'
    rwa [hl] at this
  have := isometric_square hU x' x (hl ▸ hx') (hl ▸ hx)
  refine Eq.trans (Finset.sum_congr rfl (fun y hy => ?_)) (this.trans (if_congr eq_comm rfl rfl))
  rw [get_daggered hg ea eA y x (mem_allBits.1 hy) hx, get_daggered hg ea eA y x' (mem_allBits.1 hy) hx', star_star, mul_comm]

/-! ## Trace preservation -/

/-- The trace: one if the two copies of the quantum wires agree. -/
def tr (t : List QOb) (s : List Nat) : ℂ := if qOf t s = rOf t s then 1 else 0

theorem tr_append {t t' : List QOb} {s s' : List Nat} (h : s ∈ cqI.idx t) (h' : s' ∈ cqI.idx t') : tr (t ++ t') (s ++ s') = tr t s * tr t' s' := by
  obtain ⟨_, e1, e2⟩ := of_append (t := t) (t' := t') (s := s) (s' := s') (cqI.length_of_mem h)
  obtain ⟨_, b1, b2⟩ := bits_of h
  rw [tr, tr, tr, e1, e2, ite_mul_ite]
  exact if_congr ⟨fun h => List.append_inj h (by rw [b1.1, b2.1]), fun h => by rw [h.1, h.2]⟩ rfl rfl

/-- The box preserves the trace. -/
def TP (b : QBox) : Prop := ∀ i ∈ cqI.idx b.dom, ∑ o ∈ cqI.idx b.cod, cqI.ten b i o * tr b.cod o = tr b.dom i

theorem act_tr {l : Layer QOb QBox} (hb : TP l.box) (v : List Nat → ℂ) :
    ∑ y ∈ cqI.idx l.cod, cqI.act l v y * tr l.cod y = ∑ x ∈ cqI.idx l.dom, v x * tr l.dom x := by
  obtain ⟨left, b, right⟩ := l
  show ∑ y ∈ cqI.idx (left ++ b.cod ++ right), cqI.act ⟨left, b, right⟩ v y * tr (left ++ b.cod ++ right) y =
    ∑ x ∈ cqI.idx (left ++ b.dom ++ right), v x * tr (left ++ b.dom ++ right) x
  rw [List.append_assoc, List.append_assoc, cqI.sum_idx_append, cqI.sum_idx_append]
  refine Finset.sum_congr rfl (fun u hu => ?_)
  rw [cqI.sum_idx_append, cqI.sum_idx_append, Finset.sum_comm]
  rw [Finset.sum_comm (s := cqI.idx b.dom)]
  refine Finset.sum_congr rfl (fun w hw => ?_)
  have e1 : ∀ o ∈ cqI.idx b.cod, cqI.act ⟨left, b, right⟩ v (u ++ (o ++ w)) * tr (left ++ (b.cod ++ right)) (u ++ (o ++ w)) =
      ∑ i ∈ cqI.idx b.dom, v (u ++ (i ++ w)) * (tr left u * tr right w) * (cqI.ten b i o * tr b.cod o) := by
    intro o ho
    rw [cqI.act_split ⟨left, b, right⟩ v w (cqI.length_of_mem hu) (cqI.length_of_mem ho), tr_append hu (cqI.append_mem ho hw), tr_append ho hw, Finset.sum_mul]
    exact Finset.sum_congr rfl (fun i _ => by ring)
  rw [Finset.sum_congr rfl e1, Finset.sum_comm]
  refine Finset.sum_congr rfl (fun i hi => ?_)
  rw [← Finset.mul_sum, hb i hi, tr_append hu (cqI.append_mem hi hw), tr_append hi hw]
  ring

theorem run_tr {ls : List (Layer QOb QBox)} {a c : List QOb} (hc : Chain a ls c) (h : ∀ l ∈ ls, TP l.box) (v : List Nat → ℂ) :
    ∑ y ∈ cqI.idx c, cqI.run ls v y * tr c y = ∑ x ∈ cqI.idx a, v x * tr a x := by
  induction ls generalizing a v with
  | nil => obtain rfl : a = c := hc; rfl
  | cons l ls ih =>
    obtain ⟨h1, h2⟩ := hc
    subst h1
    exact (ih h2 (fun l' hl' => h l' (List.mem_cons_of_mem _ hl')) _).trans (act_tr (h l (List.mem_cons_self ..)) v)

theorem sum_mat_tr {d : Diagram QOb QBox} (hw : d.WT) (h : ∀ l ∈ d.layers, TP l.box) {x : List Nat} (hx : x ∈ cqI.idx d.dom) :
    ∑ y ∈ cqI.idx d.cod, cqI.mat d x y * tr d.cod y = tr d.dom x := by
  refine (run_tr hw h _).trans ?_
  rw [Finset.sum_eq_single x (fun z _ hne => by rw [if_neg hne, zero_mul]) (fun hn => absurd hx hn), if_pos rfl, one_mul]

/-- Isometries preserve the trace. -/
theorem tp_isometric {b : QBox} (hg : b.Good) (hm : b.isMixed = false) (hq : ∀ o ∈ b.dom ++ b.cod, o = QOb.qubit) (hi : Isometric b) : TP b := by
  intro i hii
  obtain ⟨a, ea, _⟩ := hg.array_ok
  have hD := dbl_good hg hm hq
  have hcount : b.cod.count .qubit = b.cod.length ∧ b.dom.count .qubit = b.dom.length :=
    ⟨List.count_eq_length.2 (fun o ho => (hq o (by simp [ho])).symm), List.count_eq_length.2 (fun o ho => (hq o (by simp [ho])).symm)⟩
  have hcb : b.cod.count .bit = 0 := List.count_eq_zero.2 (fun hb => by have := hq _ (List.mem_append_right _ hb); cases this)
  obtain ⟨_, b1, b2⟩ := bits_of hii
  rw [hcount.2] at b1 b2
  have e : ∀ o ∈ cqI.idx b.cod, cqI.ten b i o * tr b.cod o =
      (fun (_ q r : List Nat) => (a.get (qOf b.dom i ++ q) * star (a.get (rOf b.dom i ++ r))) * if q = r then (1 : ℂ) else 0) (cOf b.cod o) (qOf b.cod o) (rOf b.cod o) := by
    intro o ho
    rw [hD.2 i hii o ho, tnCat_std.ten hg.kind ea, tnCat_std.ten hg.kind ea, tr]
  refine ((Finset.sum_congr rfl e).trans (sum_cq b.cod (fun (_ q r : List Nat) => (a.get (qOf b.dom i ++ q) * star (a.get (rOf b.dom i ++ r))) * if q = r then (1 : ℂ) else 0))).trans ?_
  rw [hcb, sum_allBits_zero, hcount.1]
  rw [tr, ← hi a ea _ _ b1 b2]
  refine Finset.sum_congr rfl (fun q hq' => ?_)
  rw [sum_allBits_pick (mem_allBits.1 hq') _ (fun r _ hne => by rw [if_neg (Ne.symm hne), mul_zero]), if_pos rfl, mul_one]

theorem sum_cqIdx_qubit (g : List Nat → ℂ) : ∑ k ∈ cqI.idx [.qubit], g k = g [0] + g [1] + g [2] + g [3] := by
  rw [cqI.sum_idx_cons]
  simp [cqI, cqDim, Finset.sum_range_succ, Interp.idx]

theorem sum_cqIdx_bit (g : List Nat → ℂ) : ∑ k ∈ cqI.idx [.bit], g k = g [0] + g [1] := by
  rw [cqI.sum_idx_cons]
  simp [cqI, cqDim, Finset.sum_range_succ, Interp.idx]

theorem sum_cqIdx_nil (g : List Nat → ℂ) : ∑ k ∈ cqI.idx ([] : List QOb), g k = g [] := by simp [Interp.idx]

theorem mem_idx_qubit {i : List Nat} (h : i ∈ cqI.idx [QOb.qubit]) : i = [0] ∨ i = [1] ∨ i = [2] ∨ i = [3] := by
  obtain ⟨a, s, rfl, ha, hs⟩ := idx_cons h
  obtain rfl : s = [] := by simpa [Interp.idx] using hs
  have : a < 4 := ha
  have : a = 0 ∨ a = 1 ∨ a = 2 ∨ a = 3 := by omega
  simpa using this

theorem mem_idx_bit {i : List Nat} (h : i ∈ cqI.idx [QOb.bit]) : i = [0] ∨ i = [1] := by
  obtain ⟨a, s, rfl, ha, hs⟩ := idx_cons h
  obtain rfl : s = [] := by simpa [Interp.idx] using hs
  have : a < 2 := ha
  have : a = 0 ∨ a = 1 := by omega
  simpa using this

theorem ten_measure (i o : List Nat) : cqI.ten measure i o = (copyArray ℂ 3 2).get (cOf [.qubit] i ++ (qOf [.qubit] i ++ rOf [.qubit] i) ++ (cOf [.bit] o ++ (qOf [.bit] o ++ rOf [.bit] o))) := rfl
theorem ten_encode (i o : List Nat) : cqI.ten encode i o = (copyArray ℂ 3 2).get (cOf [.bit] i ++ (qOf [.bit] i ++ rOf [.bit] i) ++ (cOf [.qubit] o ++ (qOf [.qubit] o ++ rOf [.qubit] o))) := rfl
theorem ten_discard (i o : List Nat) : cqI.ten discard i o = (copyArray ℂ 2 2).get (cOf [.qubit] i ++ (qOf [.qubit] i ++ rOf [.qubit] i) ++ (cOf [] o ++ (qOf [] o ++ rOf [] o))) := rfl
theorem ten_mixedState (i o : List Nat) : cqI.ten mixedState i o = (copyArray ℂ 2 2).get (cOf [] i ++ (qOf [] i ++ rOf [] i) ++ (cOf [.qubit] o ++ (qOf [.qubit] o ++ rOf [.qubit] o))) := rfl

theorem get_copyArray_pair {a b : Nat} (ha : a < 2) (hb : b < 2) : (copyArray ℂ 2 2).get [a, b] = if a = b then 1 else 0 :=
  (TnCat.get_copyArray_two 2 a b ha hb).trans (if_congr eq_comm rfl rfl)

theorem tp_measure : TP measure := by
  intro i hi
  show ∑ o ∈ cqI.idx [.bit], cqI.ten measure i o * tr [.bit] o = tr [.qubit] i
  rw [sum_cqIdx_bit, ten_measure, ten_measure]
  rcases mem_idx_qubit hi with rfl | rfl | rfl | rfl <;> simp [cOf, qOf, rOf, tr, get_copyArray_three]

theorem tp_encode : TP encode := by
  intro i hi
  show ∑ o ∈ cqI.idx [.qubit], cqI.ten encode i o * tr [.qubit] o = tr [.bit] i
  rw [sum_cqIdx_qubit]
  simp only [ten_encode]
  rcases mem_idx_bit hi with rfl | rfl <;> simp [cOf, qOf, rOf, tr, get_copyArray_three]

theorem tp_discard : TP discard := by
  intro i hi
  show ∑ o ∈ cqI.idx [], cqI.ten discard i o * tr [] o = tr [.qubit] i
  rw [sum_cqIdx_nil]
  simp only [ten_discard]
  rcases mem_idx_qubit hi with rfl | rfl | rfl | rfl <;> simp [cOf, qOf, rOf, tr, get_copyArray_pair]

theorem tp_swap (p : QOb) : TP (swap p p) := by
  intro i hi
  show ∑ o ∈ cqI.idx [p, p], (if o = i.reverse then (1 : ℂ) else 0) * tr [p, p] o = tr [p, p] i
  obtain ⟨a, s, rfl, ha, hs⟩ := idx_cons hi
  obtain ⟨b, s, rfl, hb, hs⟩ := idx_cons hs
  obtain rfl : s = [] := by simpa [Interp.idx] using hs
  have hm : [b, a] ∈ cqI.idx [p, p] := (cqI.mem_idx _ _).2 (.cons hb (.cons ha .nil))
  rw [Finset.sum_eq_single [b, a] (fun o _ hne => by rw [if_neg (by simpa using hne), zero_mul]) (fun hn => absurd hm hn), if_pos (by simp), one_mul]
  cases p
  · simp only [tr, qOf, rOf]
    refine if_congr ?_ rfl rfl
    simp [and_comm]
  · simp [tr, qOf, rOf]

/-! ## Positivity -/

/-- A vector over the indices of a type is positive: a sum of products of the components of the two copies. -/
def Positive (t : List QOb) (v : List Nat → ℂ) : Prop :=
  ∃ (ι : Type) (_ : Fintype ι) (A : ι → List Nat → List Nat → ℂ), ∀ s ∈ cqI.idx t, v s = ∑ k, A k (cOf t s) (qOf t s) * star (A k (cOf t s) (rOf t s))

/-- A box has Kraus operators. -/
def Kraus (b : QBox) : Prop :=
  ∃ (ι : Type) (_ : Fintype ι) (B : ι → List Nat → List Nat → List Nat → List Nat → ℂ), ∀ i ∈ cqI.idx b.dom, ∀ o ∈ cqI.idx b.cod,
    cqI.ten b i o = ∑ k, B k (cOf b.dom i) (qOf b.dom i) (cOf b.cod o) (qOf b.cod o) * star (B k (cOf b.dom i) (rOf b.dom i) (cOf b.cod o) (rOf b.cod o))

theorem act_positive {l : Layer QOb QBox} (hb : Kraus l.box) {v : List Nat → ℂ} (hv : Positive l.dom v) : Positive l.cod (cqI.act l v) := by
  obtain ⟨left, b, right⟩ := l
  obtain ⟨ι, _, A, hA⟩ := hv
  obtain ⟨κ, _, B, hB⟩ := hb
  have hA : ∀ s ∈ cqI.idx (left ++ (b.dom ++ right)), v s = ∑ k, A k (cOf (left ++ (b.dom ++ right)) s) (qOf (left ++ (b.dom ++ right)) s) *
      star (A k (cOf (left ++ (b.dom ++ right)) s) (rOf (left ++ (b.dom ++ right)) s)) := by
    rw [← List.append_assoc]; exact hA
  change ∀ i ∈ cqI.idx b.dom, ∀ o ∈ cqI.idx b.cod, _ at hB
  let lc := left.count .bit
  let lq := left.count .qubit
  let bc := b.cod.count .bit
  let bq := b.cod.count .qubit
  refine ⟨ι × κ × {c // c ∈ allBits (b.dom.count QOb.bit)}, inferInstance, fun p c q =>
    ∑ qi ∈ allBits (b.dom.count QOb.qubit), A p.1 (c.take lc ++ (p.2.2 ++ (c.drop lc).drop bc)) (q.take lq ++ (qi ++ (q.drop lq).drop bq)) *
      B p.2.1 p.2.2 qi ((c.drop lc).take bc) ((q.drop lq).take bq), fun s hs => ?_⟩
  have hs' : s ∈ cqI.idx (left ++ (b.cod ++ right)) := by rw [← List.append_assoc]; exact hs
  obtain ⟨u, s2, rfl, h1, h2⟩ := cqI.mem_append hs'
  obtain ⟨o, w, rfl, h3, h4⟩ := cqI.mem_append h2
  have ht : (⟨left, b, right⟩ : Layer QOb QBox).cod = left ++ (b.cod ++ right) := List.append_assoc ..
  rw [ht]
  obtain ⟨a1, a2, a3⟩ := of_append (t := left) (t' := b.cod ++ right) (s := u) (s' := o ++ w) (cqI.length_of_mem h1)
  obtain ⟨b1, b2, b3⟩ := of_append (t := b.cod) (t' := right) (s := o) (s' := w) (cqI.length_of_mem h3)
  obtain ⟨c1, c2, c3⟩ := bits_of h1
  obtain ⟨d1, d2, d3⟩ := bits_of h3
  rw [cqI.act_split ⟨left, b, right⟩ v w (cqI.length_of_mem h1) (cqI.length_of_mem h3), a1, a2, a3, b1, b2, b3]
  simp only [lc, lq, bc, bq, List.take_left' c1.1, List.take_left' c2.1, List.take_left' c3.1, List.drop_left' c1.1, List.drop_left' c2.1, List.drop_left' c3.1,
    List.take_left' d1.1, List.take_left' d2.1, List.take_left' d3.1, List.drop_left' d1.1, List.drop_left' d2.1, List.drop_left' d3.1]
  let G : List Nat → List Nat → List Nat → ℂ := fun c q r =>
    (∑ k, A k (cOf left u ++ (c ++ cOf right w)) (qOf left u ++ (q ++ qOf right w)) * star (A k (cOf left u ++ (c ++ cOf right w)) (rOf left u ++ (r ++ rOf right w)))) *
    ∑ k, B k c q (cOf b.cod o) (qOf b.cod o) * star (B k c r (cOf b.cod o) (rOf b.cod o))
  have e : ∀ i ∈ cqI.idx b.dom, v (u ++ (i ++ w)) * cqI.ten b i o = G (cOf b.dom i) (qOf b.dom i) (rOf b.dom i) := by
    intro i hi
    obtain ⟨e1, e2, e3⟩ := of_append (t := left) (t' := b.dom ++ right) (s := u) (s' := i ++ w) (cqI.length_of_mem h1)
    obtain ⟨f1, f2, f3⟩ := of_append (t := b.dom) (t' := right) (s := i) (s' := w) (cqI.length_of_mem hi)
    rw [hA _ (cqI.append_mem h1 (cqI.append_mem hi h4)), hB i hi o h3, e1, e2, e3, f1, f2, f3]
  refine ((Finset.sum_congr rfl e).trans (sum_cq b.dom G)).trans ?_
  rw [Fintype.sum_prod_type]
  simp only [Fintype.sum_prod_type, star_sum, Finset.sum_mul_sum, G]
  rw [← Finset.sum_coe_sort (allBits (b.dom.count QOb.bit))]
  have hswap : ∀ f : ι → κ → {c // c ∈ allBits (b.dom.count QOb.bit)} → ℂ, ∑ a, ∑ k, ∑ c, f a k c = ∑ c, ∑ a, ∑ k, f a k c := by
    intro f
    rw [Finset.sum_congr rfl (fun a _ => Finset.sum_comm (f := f a)), Finset.sum_comm]
  rw [hswap]
  refine Finset.sum_congr rfl (fun c _ => ?_)
  have : ∀ f : List Nat → List Nat → ι → κ → ℂ, ∑ q ∈ allBits (b.dom.count QOb.qubit), ∑ r ∈ allBits (b.dom.count QOb.qubit), ∑ a, ∑ k, f q r a k =
      ∑ a, ∑ k, ∑ q ∈ allBits (b.dom.count QOb.qubit), ∑ r ∈ allBits (b.dom.count QOb.qubit), f q r a k := by
    intro f
    rw [Finset.sum_congr rfl (fun q _ => Finset.sum_comm), Finset.sum_comm]
    refine Finset.sum_congr rfl (fun a _ => ?_)
    rw [Finset.sum_congr rfl (fun q _ => Finset.sum_comm), Finset.sum_comm]
  rw [this]
  refine Finset.sum_congr rfl (fun a _ => Finset.sum_congr rfl (fun k _ => Finset.sum_congr rfl (fun q _ => Finset.sum_congr rfl (fun r _ => ?_))))
  rw [star_mul']
  ring

theorem run_positive {ls : List (Layer QOb QBox)} {a c : List QOb} (hc : Chain a ls c) (h : ∀ l ∈ ls, Kraus l.box) {v : List Nat → ℂ} (hv : Positive a v) :
    Positive c (cqI.run ls v) := by
  induction ls generalizing a v with
  | nil => obtain rfl : a = c := hc; exact hv
  | cons l ls ih =>
    obtain ⟨h1, h2⟩ := hc
    subst h1
    exact ih h2 (fun l' hl' => h l' (List.mem_cons_of_mem _ hl')) (act_positive (h l (List.mem_cons_self ..)) hv)

/-- The diagonal entries of a positive vector are non-negative real numbers. -/
theorem Positive.diag {t : List QOb} {v : List Nat → ℂ} (h : Positive t v) {s : List Nat} (hs : s ∈ cqI.idx t) (hd : qOf t s = rOf t s) :
    ∃ p : ℝ, 0 ≤ p ∧ v s = p := by
  obtain ⟨ι, _, A, hA⟩ := h
  refine ⟨∑ k, Complex.normSq (A k (cOf t s) (qOf t s)), Finset.sum_nonneg (fun k _ => Complex.normSq_nonneg _), ?_⟩
  rw [hA s hs, ← hd, Complex.ofReal_sum]
  exact Finset.sum_congr rfl (fun k _ => Complex.mul_conj _)

/-- A basis state is positive. -/
theorem positive_basis {t : List QOb} {x : List Nat} (hx : x ∈ cqI.idx t) (hd : qOf t x = rOf t x) : Positive t (fun z => if z = x then 1 else 0) := by
  refine ⟨Unit, inferInstance, fun _ c q => if c = cOf t x ∧ q = qOf t x then 1 else 0, fun s hs => ?_⟩
  rw [Fintype.sum_unique]
  have : s = x ↔ (cOf t s = cOf t x ∧ qOf t s = qOf t x) ∧ (cOf t s = cOf t x ∧ rOf t s = qOf t x) := by
    constructor
    · rintro rfl; exact ⟨⟨rfl, rfl⟩, rfl, hd.symm⟩
    · rintro ⟨⟨h1, h2⟩, _, h3⟩; exact of_inj hs hx h1 h2 (h3.trans hd)
  show (if s = x then (1 : ℂ) else 0) = (if cOf t s = cOf t x ∧ qOf t s = qOf t x then 1 else 0) * star (if cOf t s = cOf t x ∧ rOf t s = qOf t x then 1 else 0)
  by_cases h1 : cOf t s = cOf t x ∧ qOf t s = qOf t x <;> by_cases h2 : cOf t s = cOf t x ∧ rOf t s = qOf t x
  · rw [if_pos (this.2 ⟨h1, h2⟩), if_pos h1, if_pos h2]; simp
  · rw [if_neg (fun h => h2 (this.1 h).2), if_neg h2]; simp
  · rw [if_neg (fun h => h1 (this.1 h).1), if_neg h1]; simp
  · rw [if_neg (fun h => h1 (this.1 h).1), if_neg h1]; simp

theorem kraus_dbl {b : QBox} (h : Dbl b) : Kraus b :=
  ⟨Unit, inferInstance, fun _ _ q _ q' => tnCat.interp.ten b q q', fun i hi o ho => by rw [Fintype.sum_unique]; exact h.2 i hi o ho⟩

theorem kraus_measure : Kraus measure := by
  refine ⟨Unit, inferInstance, fun _ _ q c' _ => if q = c' then 1 else 0, fun i hi o ho => ?_⟩
  rw [Fintype.sum_unique, ten_measure]
  rcases mem_idx_qubit hi with rfl | rfl | rfl | rfl <;> rcases mem_idx_bit ho with rfl | rfl <;>
    simp [cOf, qOf, rOf, get_copyArray_three, dom, cod, sig]

theorem kraus_encode : Kraus encode := by
  refine ⟨Unit, inferInstance, fun _ c _ _ q' => if q' = c then 1 else 0, fun i hi o ho => ?_⟩
  rw [Fintype.sum_unique, ten_encode]
  rcases mem_idx_bit hi with rfl | rfl <;> rcases mem_idx_qubit ho with rfl | rfl | rfl | rfl <;>
    simp [cOf, qOf, rOf, get_copyArray_three, dom, cod, sig]

theorem kraus_discard : Kraus discard := by
  refine ⟨Bool, inferInstance, fun k _ q _ _ => if q = [k.toNat] then 1 else 0, fun i hi o ho => ?_⟩
  rw [Fintype.sum_bool, ten_discard]
  obtain rfl : o = [] := by simpa [Interp.idx, cod, sig] using ho
  rcases mem_idx_qubit hi with rfl | rfl | rfl | rfl <;> simp [cOf, qOf, rOf, get_copyArray_pair, dom, cod, sig]

theorem kraus_mixedState : Kraus mixedState := by
  refine ⟨Bool, inferInstance, fun k _ _ _ q => if q = [k.toNat] then 1 else 0, fun i hi o ho => ?_⟩
  rw [Fintype.sum_bool, ten_mixedState]
  obtain rfl : i = [] := by simpa [Interp.idx, dom, sig] using hi
  rcases mem_idx_qubit ho with rfl | rfl | rfl | rfl <;> simp [cOf, qOf, rOf, get_copyArray_pair, dom, cod, sig]

theorem kraus_swapBit : Kraus (swap .bit .bit) := by
  refine ⟨Unit, inferInstance, fun _ c _ c' _ => if c' = c.reverse then 1 else 0, fun i hi o ho => ?_⟩
  rw [Fintype.sum_unique]
  obtain ⟨a, s, rfl, ha, hs⟩ := idx_cons hi
  obtain ⟨b, s, rfl, hb, hs⟩ := idx_cons hs
  obtain rfl : s = [] := by simpa [Interp.idx] using hs
  obtain ⟨c, s, rfl, hc, hs⟩ := idx_cons ho
  obtain ⟨d, s, rfl, hd, hs⟩ := idx_cons hs
  obtain rfl : s = [] := by simpa [Interp.idx] using hs
  show (if [c, d] = [a, b].reverse then (1 : ℂ) else 0) = (if [c, d] = [a, b].reverse then 1 else 0) * star (if [c, d] = [a, b].reverse then 1 else 0)
  by_cases h : [c, d] = [a, b].reverse
  · rw [if_pos h]; simp
  · rw [if_neg h]; simp

end
end QBox
end Lambeq
