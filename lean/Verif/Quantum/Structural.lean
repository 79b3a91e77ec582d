import Verif.Quantum.Adjoint

/-!
# Caps, cups and spiders as circuits (C70)

Models `generate_cap`, `generate_cup` and `generate_spider`, quantum.py:608-700. Numbers of legs are natural numbers.
-/

namespace Lambeq
open Diagram
set_option linter.unusedSectionVars false
set_option linter.unusedSimpArgs false

namespace QBox
noncomputable section

/-- Python `>>` for two diagrams, the first of which may have raised. -/
def thenE (f : Except PyErr (Diagram QOb QBox)) (g : Diagram QOb QBox) : Except PyErr (Diagram QOb QBox) :=
  match f with
  | .error e => .error e
  | .ok f => andThen f g

/-- quantum.py:630 -/
def atomicCap : Except PyErr (Diagram QOb QBox) :=
  thenE (andThen (tensor (ofBox (ket false)) (ofBox (ket false))) (tensor (tensor (ofBox H) (ofBox (sqrt 2))) (Diagram.id [.qubit]))) (ofBox (controlled X 1))

/-- quantum.py:662 -/
def atomicCup : Except PyErr (Diagram QOb QBox) :=
  thenE (andThen (ofBox (controlled X 1)) (tensor (tensor (ofBox H) (ofBox (sqrt 2))) (Diagram.id [.qubit]))) (tensor (ofBox (bra false)) (ofBox (bra false)))

/-- The loops of quantum.py:634-635 and 666-667. -/
def atLoop (g : Diagram QOb QBox) : List Int → Diagram QOb QBox → Except PyErr (Diagram QOb QBox)
  | [], d => .ok d
  | i :: is, d => match thenAt d g i with
    | .error e => .error e
    | .ok d => atLoop g is d

/-- quantum.py:608-637 -/
def generateCap (left right : List QOb) : Except PyErr (Diagram QOb QBox) :=
  if left ≠ right then .error .assertionError
  else match atomicCap with
    | .error e => .error e
    | .ok g => atLoop g ((List.range left.length).map (fun i : Nat => (i : Int))) (Diagram.id [])

/-- quantum.py:640-669 -/
def generateCup (left right : List QOb) : Except PyErr (Diagram QOb QBox) :=
  if left ≠ right then .error .assertionError
  else match atomicCup with
    | .error e => .error e
    | .ok g => atLoop g ((List.range left.length).map (fun i : Nat => (left.length : Int) - i - 1)) (Diagram.id (left ++ right))

/-- The weight of a number of legs, for the termination of `generate_spider`. -/
def legWeight (n : Nat) : Nat := if n = 0 then 2 else n

theorem legWeight_cases (n : Nat) : (n = 0 ∧ legWeight n = 2) ∨ (n ≠ 0 ∧ legWeight n = n) := by
  unfold legWeight; split <;> simp_all

/-- quantum.py:672-700 for `type == qubit`. -/
def spiderQ (i o : Nat) : Except PyErr (Diagram QOb QBox) :=
  if i = 1 ∧ o = 1 then .ok (Diagram.id [.qubit])
  else if i = 1 ∧ o = 0 then andThen (tensor (ofBox (sqrt 2)) (ofBox H)) (ofBox (bra false))
  else if i = 2 ∧ o = 1 then andThen (ofBox CX) (tensor (Diagram.id [.qubit]) (ofBox (bra false)))
  else if o > i then match spiderQ o i with
    | .error e => .error e
    | .ok d => .ok (ddagger d)
  else if o ≠ 1 then match spiderQ i 1, spiderQ 1 o with
    | .ok d, .ok e => andThen d e
    | .error e, _ => .error e
    | _, .error e => .error e
  else if i % 2 = 1 then match spiderQ (i - 1) 1, spiderQ 2 1 with
    | .ok d, .ok e => andThen (tensor d (Diagram.id [.qubit])) e
    | .error e, _ => .error e
    | _, .error e => .error e
  else match spiderQ (i / 2) 1, spiderQ 2 1 with
    | .ok d, .ok e => andThen (tensor d d) e
    | .error e, _ => .error e
    | _, .error e => .error e
termination_by 2 * (legWeight i + legWeight o) + (if o > i then 1 else 0)
decreasing_by
  all_goals
    have hi := legWeight_cases i
    have ho := legWeight_cases o
    have h1 := legWeight_cases 1
    have h2 := legWeight_cases 2
    have h3 := legWeight_cases (i - 1)
    have h4 := legWeight_cases (i / 2)
    first
    | (rw [if_neg (by omega), if_pos (by omega)]; omega)
    | (rw [if_pos (by omega), if_neg (by omega)]; omega)
    | (rw [if_neg (by omega), if_neg (by omega)]; omega)
    | (split_ifs <;> omega)

/-- quantum.py:672-700 -/
def generateSpider (ty : List QOb) (i o : Nat) : Except PyErr (Diagram QOb QBox) :=
  if i = 1 ∧ o = 1 then .ok (Diagram.id ty)
  else if ty = [] then .ok (Diagram.id [])
  else if ty ≠ [.qubit] then .error .notImplementedError
  else spiderQ i o

/-! ## Values of the gates -/

theorem good_H : H.Good := ⟨_, rfl, rfl, fun _ => rfl, by decide⟩
theorem good_X : X.Good := ⟨_, rfl, rfl, fun _ => rfl, by decide⟩
theorem good_CX : CX.Good := ⟨by decide, good_X, rfl⟩

theorem den_CX : Den (ofBox (controlled X 1)) [.qubit, .qubit] [.qubit, .qubit]
    (fun x y => if y.getD 0 0 = x.getD 0 0 ∧ y.getD 1 0 = (x.getD 0 0 + x.getD 1 0) % 2 then 1 else 0) := by
  obtain ⟨A, hA, _, _, hget⟩ := array_controlled_spec X 1 (by decide) (a := ⟨[2, 2], [0, 1, 1, 0]⟩) rfl rfl rfl
  refine (Den.ofBox (b := controlled X 1) good_CX hA).congr (fun x y hx hy => ?_)
  obtain ⟨a, w, rfl, ha, hw⟩ := Bits.uncons (n := 1) hx
  obtain ⟨b, w', rfl, hb, hw'⟩ := Bits.uncons (n := 0) hw
  obtain rfl := hw'.eq_nil
  obtain ⟨c, v, rfl, hc, hv⟩ := Bits.uncons (n := 1) hy
  obtain ⟨d, v', rfl, hd, hv'⟩ := Bits.uncons (n := 0) hv
  obtain rfl := hv'.eq_nil
  rw [hget [a, b] a [] [b] [c, d] c [] [d] rfl rfl hx hy ⟨rfl, rfl⟩ ⟨rfl, rfl⟩, if_pos rfl]
  interval_cases a <;> interval_cases b <;> interval_cases c <;> interval_cases d <;> simp [ctrl, NdArray.get, ravel]

theorem den_H : Den (ofBox H) [.qubit] [.qubit] (fun x y => ((Real.sqrt 2)⁻¹ : ℝ) * (if x.getD 0 0 = 1 ∧ y.getD 0 0 = 1 then -1 else 1)) := by
  refine (Den.ofBox good_H rfl).congr (fun x y hx hy => ?_)
  obtain ⟨a, w, rfl, ha, hw⟩ := Bits.uncons (n := 0) hx
  obtain rfl := hw.eq_nil
  obtain ⟨b, w', rfl, hb, hw'⟩ := Bits.uncons (n := 0) hy
  obtain rfl := hw'.eq_nil
  interval_cases a <;> interval_cases b <;> simp [NdArray.get, ravel, qDims]

theorem den_ket (b : Bool) : Den (ofBox (ket b)) [] [.qubit] (fun _ y => if y.getD 0 0 = b.toNat then 1 else 0) := by
  refine (Den.ofBox (b := ket b) trivial rfl).congr (fun x y hx hy => ?_)
  obtain rfl := hx.eq_nil
  obtain ⟨c, w', rfl, hc, hw'⟩ := Bits.uncons (n := 0) hy
  obtain rfl := hw'.eq_nil
  cases b <;> interval_cases c <;> simp [NdArray.get, ravel]

theorem den_bra (b : Bool) : Den (ofBox (bra b)) [.qubit] [] (fun x _ => if x.getD 0 0 = b.toNat then 1 else 0) := by
  refine (Den.ofBox (b := bra b) trivial rfl).congr (fun x y hx hy => ?_)
  obtain rfl := hy.eq_nil
  obtain ⟨c, w', rfl, hc, hw'⟩ := Bits.uncons (n := 0) hx
  obtain rfl := hw'.eq_nil
  cases b <;> interval_cases c <;> simp [NdArray.get, ravel]

theorem den_sqrt2 : Den (ofBox (sqrt 2)) [] [] (fun _ _ => (Real.sqrt 2 : ℝ)) := by
  refine (Den.ofBox (b := sqrt 2) trivial rfl).congr (fun x y hx hy => ?_)
  obtain rfl := hy.eq_nil
  obtain rfl := hx.eq_nil
  simp only [NdArray.get, ravel, List.append_nil, List.getD_cons_zero]
  rw [Real.sqrt_eq_rpow, Complex.ofReal_cpow (by norm_num)]
  norm_num

theorem sqrt2_mul_inv : ((Real.sqrt 2 : ℝ) : ℂ) * (((Real.sqrt 2)⁻¹ : ℝ) : ℂ) = 1 := by
  rw [← Complex.ofReal_mul, mul_inv_cancel₀ (by positivity)]; rfl

theorem sum_allBits_two {R : Type} [AddCommMonoid R] (f : List Nat → R) : ∑ x ∈ allBits 2, f x = f [0, 0] + f [0, 1] + (f [1, 0] + f [1, 1]) := by
  rw [sum_allBits_succ, sum_allBits_one, sum_allBits_one]

/-- The entry of the cap and the cup on one qubit. -/
theorem den_atomicCap : ∃ g, atomicCap = .ok g ∧ Den g [] [.qubit, .qubit] (fun _ y => if y.getD 0 0 = y.getD 1 0 then 1 else 0) := by
  obtain ⟨d1, e1, h1⟩ := ((den_ket false).tensor (den_ket false)).comp ((den_H.tensor den_sqrt2).tensor (Den.ofId [.qubit]))
  obtain ⟨d2, e2, h2⟩ := h1.comp den_CX
  refine ⟨d2, by rw [atomicCap, e1]; exact e2, h2.congr (fun x y hx hy => ?_)⟩
  obtain rfl := hx.eq_nil
  obtain ⟨a, w, rfl, ha, hw⟩ := Bits.uncons (n := 1) hy
  obtain ⟨b, w', rfl, hb, hw'⟩ := Bits.uncons (n := 0) hw
  obtain rfl := hw'.eq_nil
  have hs := sqrt2_mul_inv
  rw [mul_comm] at hs
  simp only [List.length_append, List.length_cons, List.length_nil, Nat.reduceAdd, sum_allBits_two]
  interval_cases a <;> interval_cases b <;> simp [hs]

theorem den_atomicCup : ∃ g, atomicCup = .ok g ∧ Den g [.qubit, .qubit] [] (fun x _ => if x.getD 0 0 = x.getD 1 0 then 1 else 0) := by
  obtain ⟨d1, e1, h1⟩ := den_CX.comp ((den_H.tensor den_sqrt2).tensor (Den.ofId [.qubit]))
  obtain ⟨d2, e2, h2⟩ := h1.comp ((den_bra false).tensor (den_bra false))
  refine ⟨d2, by rw [atomicCup, e1]; exact e2, h2.congr (fun x y hx hy => ?_)⟩
  obtain rfl := hy.eq_nil
  obtain ⟨a, w, rfl, ha, hw⟩ := Bits.uncons (n := 1) hx
  obtain ⟨b, w', rfl, hb, hw'⟩ := Bits.uncons (n := 0) hw
  obtain rfl := hw'.eq_nil
  have hs := sqrt2_mul_inv
  rw [mul_comm] at hs
  simp only [List.length_append, List.length_cons, List.length_nil, Nat.reduceAdd, sum_allBits_two]
  interval_cases a <;> interval_cases b <;> simp [hs]

/-! ## Caps and cups -/

theorem den_cod_qubits {k : Nat} {d : Diagram QOb QBox} {M : List Nat → List Nat → ℂ} (h : Den d [] (qubits k) M) : d.cod = qubits k := h.cod

/-- Inserting a circuit in the middle. -/
theorem Den.thenAt {d g : Diagram QOb QBox} {a : List QOb} {m p q k : Nat} {M N : List Nat → List Nat → ℂ} (hd : Den d a (qubits (m + p + k)) M)
    (hg : Den g (qubits p) (qubits q) N) :
    ∃ d', Diagram.thenAt d g (m : Int) = .ok d' ∧ Den d' a (qubits (m + q + k))
      (fun x y => ∑ z ∈ allBits p, M x (y.take m ++ z ++ y.drop (m + q)) * N z ((y.drop m).take q)) := by
  have hl := qubits_length
  have hcod : d.cod = qubits m ++ qubits p ++ qubits k := by rw [hd.cod, qubits_add, qubits_add]
  have e1 : pySlice d.cod none (some (m : Int)) = qubits m := by
    rw [pySlice_nat_to, hcod, List.append_assoc]; exact List.take_left' (hl m)
  have e2 : pySlice d.cod (some ((m : Int) + g.dom.length)) none = qubits k := by
    have : ((m : Int) + g.dom.length) = ((m + p : Nat) : Int) := by rw [hg.dom, hl]; omega
    rw [this, pySlice_nat_from, hcod]; exact List.drop_left' (by simp [hl])
  obtain ⟨d', h1, h2⟩ := hd.comp (b := qubits (m + p + k)) (g := Diagram.tensor (Diagram.tensor (Diagram.id (qubits m)) g) (Diagram.id (qubits k))) (by
    have := ((Den.ofId (qubits m)).tensor hg).tensor (Den.ofId (qubits k))
    rw [qubits_add, qubits_add, qubits_add, qubits_add] at this
    exact this)
  refine ⟨d', by rw [Diagram.thenAt, e1, e2]; exact h1, h2.congr (fun x y hx hy => ?_)⟩
  simp only [hl, List.length_append] at hy ⊢
  obtain ⟨y, yr, rfl, hy, hyr⟩ := hy.split
  obtain ⟨yl, yc, rfl, hyl, hyc⟩ := hy.split
  rw [sum_allBits_add, sum_allBits_add]
  have tk : ∀ {n r : Nat} {u v w : List Nat}, Bits n u → Bits r v → (u ++ v ++ w).take (n + r) = u ++ v ∧ (u ++ v ++ w).drop (n + r) = w ∧
      (u ++ v).take n = u ∧ (u ++ v).drop n = v ∧ (u ++ v ++ w).take n = u ∧ ((u ++ v ++ w).drop n).take r = v := by
    intro n r u v w hu hv
    refine ⟨List.take_left' (by simp [hu.1, hv.1]), List.drop_left' (by simp [hu.1, hv.1]), List.take_left' hu.1, List.drop_left' hu.1, ?_, ?_⟩
    · rw [List.append_assoc]; exact List.take_left' hu.1
    · rw [List.append_assoc, List.drop_left' hu.1]; exact List.take_left' hv.1
  obtain ⟨t1, t2, t3, t4, t5, t6⟩ := tk (w := yr) hyl hyc
  simp only [t1, t2, t3, t4, t5, t6]
  rw [sum_allBits_pick hyl]
  · refine Finset.sum_congr rfl (fun z hz => ?_)
    have hz := mem_allBits.1 hz
    rw [sum_allBits_pick hyr]
    · obtain ⟨r1, r2, r3, r4, r5, r6⟩ := tk (w := yr) hyl hz
      simp only [r1, r2, r3, r4, if_true, one_mul, mul_one]
    · intro w hw hne
      obtain ⟨r1, r2, r3, r4, r5, r6⟩ := tk (w := w) hyl hz
      simp only [r1, r2, if_neg (Ne.symm hne), mul_zero]
  · intro w hw hne
    refine Finset.sum_eq_zero (fun z hz => Finset.sum_eq_zero (fun v hv => ?_))
    obtain ⟨r1, r2, r3, r4, r5, r6⟩ := tk (w := v) hw (mem_allBits.1 hz)
    simp only [r1, r3, if_neg (Ne.symm hne), zero_mul, mul_zero]

/-- One round of the loop of `generate_cap`. -/
theorem capLoop_spec {g : Diagram QOb QBox} (hg : Den g [] [.qubit, .qubit] (fun _ y => if y.getD 0 0 = y.getD 1 0 then 1 else 0)) (r : Nat) :
    ∀ (k : Nat) (d : Diagram QOb QBox), Den d [] (qubits (k + 0 + k)) (fun _ y => if y.drop k = (y.take k).reverse then 1 else 0) →
      ∃ d', atLoop g ((List.range' k r).map (fun i : Nat => (i : Int))) d = .ok d' ∧
        Den d' [] (qubits ((k + r) + 0 + (k + r))) (fun _ y => if y.drop (k + r) = (y.take (k + r)).reverse then 1 else 0) := by
  induction r with
  | zero => intro k d hd; exact ⟨d, rfl, hd⟩
  | succ r ih =>
    intro k d hd
    obtain ⟨d1, e1, h1⟩ := hd.thenAt (p := 0) (q := 2) hg
    have h2 : Den d1 [] (qubits ((k + 1) + 0 + (k + 1))) (fun _ y => if y.drop (k + 1) = (y.take (k + 1)).reverse then 1 else 0) := by
      rw [show (k + 1) + 0 + (k + 1) = k + 2 + k by omega]
      refine h1.congr (fun x y hx hy => ?_)
      rw [qubits_length] at hy
      obtain ⟨y, yr, rfl, hy, hyr⟩ := hy.split
      obtain ⟨yl, yc, rfl, hyl, hyc⟩ := hy.split
      obtain ⟨a, w, rfl, ha, hw⟩ := Bits.uncons (n := 1) hyc
      obtain ⟨b, w', rfl, hb, hw'⟩ := Bits.uncons (n := 0) hw
      obtain rfl := hw'.eq_nil
      rw [sum_allBits_zero]
      have q1 : (yl ++ [a, b] ++ yr).take k = yl := by rw [List.append_assoc]; exact List.take_left' hyl.1
      have q2 : (yl ++ [a, b] ++ yr).drop (k + 2) = yr := List.drop_left' (by simp [hyl.1])
      have q3 : ((yl ++ [a, b] ++ yr).drop k).take 2 = [a, b] := by rw [List.append_assoc, List.drop_left' hyl.1]; rfl
      have q4 : (yl ++ [a, b] ++ yr).take (k + 1) = yl ++ [a] := by
        rw [show yl ++ [a, b] ++ yr = (yl ++ [a]) ++ (b :: yr) by simp]; exact List.take_left' (by simp [hyl.1])
      have q5 : (yl ++ [a, b] ++ yr).drop (k + 1) = b :: yr := by
        rw [show yl ++ [a, b] ++ yr = (yl ++ [a]) ++ (b :: yr) by simp]; exact List.drop_left' (by simp [hyl.1])
      rw [q1, q2, q3, q4, q5, List.append_nil, List.drop_left' hyl.1, List.take_left' hyl.1]
      simp only [List.getD_cons_zero, List.getD_cons_succ, List.reverse_append, List.reverse_cons, List.reverse_nil, List.nil_append, List.singleton_append,
        List.cons.injEq]
      by_cases h1 : a = b <;> by_cases h2 : yr = yl.reverse <;> simp [h1, h2, eq_comm]
    obtain ⟨d', e2, h3⟩ := ih (k + 1) d1 h2
    refine ⟨d', ?_, by rw [show k + (r + 1) = k + 1 + r by omega]; exact h3⟩
    simp only [List.range'_succ, List.map_cons, atLoop, e1]
    exact e2

theorem generateCap_den (n : Nat) : ∃ d, generateCap (qubits n) (qubits n) = .ok d ∧
    Den d [] (qubits n ++ qubits n) (fun _ y => if y.drop n = (y.take n).reverse then 1 else 0) := by
  obtain ⟨g, eg, hg⟩ := den_atomicCap
  obtain ⟨d, e, h⟩ := capLoop_spec hg n 0 (Diagram.id []) ((Den.ofId []).congr (fun x y hx hy => by
    obtain rfl := hx.eq_nil
    obtain rfl := hy.eq_nil
    simp))
  refine ⟨d, ?_, by rw [Nat.zero_add, Nat.add_zero] at h; rw [qubits_add]; exact h⟩
  rw [generateCap, if_neg (by simp), eg, qubits_length, List.range_eq_range']
  exact e

/-- The loop of `generate_cup`. -/
theorem cupLoop_spec {g : Diagram QOb QBox} (hg : Den g [.qubit, .qubit] [] (fun x _ => if x.getD 0 0 = x.getD 1 0 then 1 else 0)) (m : Nat) :
    ∀ (a : List QOb) (d : Diagram QOb QBox) (M : List Nat → List Nat → ℂ), Den d a (qubits (m + m)) M →
      ∃ d', atLoop g ((List.range m).map (fun i : Nat => (m : Int) - i - 1)) d = .ok d' ∧
        Den d' a [] (fun x _ => ∑ u ∈ allBits m, M x (u ++ u.reverse)) := by
  induction m with
  | zero =>
    intro a d M hd
    refine ⟨d, rfl, Den.congr hd (fun x y hx hy => ?_)⟩
    obtain rfl := hy.eq_nil
    rw [sum_allBits_zero]; rfl
  | succ m ih =>
    intro a d M hd
    have hd : Den d a (qubits (m + 2 + m)) M := by rw [show m + 2 + m = m + 1 + (m + 1) by omega]; exact hd
    obtain ⟨d1, e1, h1⟩ := hd.thenAt (q := 0) hg
    obtain ⟨d', e2, h2⟩ := ih a d1 _ h1
    refine ⟨d', ?_, h2.congr (fun x y hx hy => ?_)⟩
    · rw [List.range_succ_eq_map, List.map_cons, List.map_map, atLoop]
      have : ((m + 1 : Nat) : Int) - (0 : Nat) - 1 = (m : Int) := by omega
      rw [this, e1]
      rw [show (List.map ((fun i : Nat => ((m + 1 : Nat) : Int) - i - 1) ∘ Nat.succ) (List.range m)) = (List.range m).map (fun i : Nat => (m : Int) - i - 1) from
        List.map_congr_left (fun i _ => by simp only [Function.comp_apply]; omega)]
      exact e2
    · rw [sum_allBits_add m 1]
      refine Finset.sum_congr rfl (fun u hu => ?_)
      have hu := mem_allBits.1 hu
      have q1 : (u ++ u.reverse).take m = u := List.take_left' hu.1
      have q2 : (u ++ u.reverse).drop (m + 0) = u.reverse := List.drop_left' hu.1
      rw [sum_allBits_two, sum_allBits_one, q1, q2]
      simp

theorem generateCup_den (n : Nat) : ∃ d, generateCup (qubits n) (qubits n) = .ok d ∧
    Den d (qubits n ++ qubits n) [] (fun x _ => if x.drop n = (x.take n).reverse then 1 else 0) := by
  obtain ⟨g, eg, hg⟩ := den_atomicCup
  have h0 := Den.ofId (qubits n ++ qubits n)
  rw [qubits_add] at h0
  obtain ⟨d, e, h⟩ := cupLoop_spec hg n _ _ _ h0
  refine ⟨d, ?_, by
    rw [qubits_add]
    refine h.congr (fun x y hx hy => ?_)
    rw [qubits_length] at hx
    obtain ⟨p, q, rfl, hp, hq⟩ := hx.split
    rw [List.take_left' hp.1, List.drop_left' hp.1, sum_allBits_pick hp]
    · simp [eq_comm]
    · intro z hz hne
      rw [if_neg]
      intro e
      exact hne (List.append_inj_left e (by rw [hz.1, hp.1]))⟩
  rw [generateCup, if_neg (by simp), eg, qubits_length, qubits_add]
  exact e

/-- **C70 (caps).** The cap on `n` qubits is the circuit whose value pairs the wires from the inside out: amplitude 1 on `u` followed by its
reverse, 0 elsewhere. -/
theorem C70_cap (n : Nat) : ∃ d F, generateCap (qubits n) (qubits n) = .ok d ∧ d.dom = [] ∧ d.cod = qubits n ++ qubits n ∧ pureEval d = .ok F ∧
    ∀ u v, Bits n u → Bits n v → F (u ++ v) = if v = u.reverse then 1 else 0 := by
  obtain ⟨d, e, h⟩ := generateCap_den n
  obtain ⟨F, f1, f2⟩ := h.eval
  refine ⟨d, F, e, h.dom, h.cod, f1, fun u v hu hv => ?_⟩
  have := f2 [] (u ++ v) Bits.nil (by rw [List.length_append, qubits_length]; exact hu.append hv)
  rw [List.nil_append] at this
  rw [this, List.take_left' hu.1, List.drop_left' hu.1]

/-- **C70 (cups).** -/
theorem C70_cup (n : Nat) : ∃ d F, generateCup (qubits n) (qubits n) = .ok d ∧ d.dom = qubits n ++ qubits n ∧ d.cod = [] ∧ pureEval d = .ok F ∧
    ∀ u v, Bits n u → Bits n v → F (u ++ v) = if v = u.reverse then 1 else 0 := by
  obtain ⟨d, e, h⟩ := generateCup_den n
  obtain ⟨F, f1, f2⟩ := h.eval
  refine ⟨d, F, e, h.dom, h.cod, f1, fun u v hu hv => ?_⟩
  have := f2 (u ++ v) [] (by rw [List.length_append, qubits_length]; exact hu.append hv) Bits.nil
  rw [List.append_nil] at this
  rw [this, List.take_left' hu.1, List.drop_left' hu.1]

/-- **C70 (type errors).** Different types on the two sides raise. -/
theorem C70_unequal (l r : List QOb) (h : l ≠ r) : generateCap l r = .error .assertionError ∧ generateCup l r = .error .assertionError := by
  simp [generateCap, generateCup, h]

theorem split_three {n : Nat} {p q r : List Nat} (hp : Bits n p) (hq : Bits n q) (hr : Bits n r) :
    (p ++ (q ++ r)).take n = p ∧ (p ++ (q ++ r)).drop n = q ++ r ∧ (q ++ r).take n = q ∧ (q ++ r).drop n = r ∧
    (p ++ (q ++ r)).take (n + n) = p ++ q ∧ (p ++ (q ++ r)).drop (n + n) = r ∧ (p ++ q).take n = p ∧ (p ++ q).drop n = q := by
  refine ⟨List.take_left' hp.1, List.drop_left' hp.1, List.take_left' hq.1, List.drop_left' hq.1, ?_, ?_, List.take_left' hp.1, List.drop_left' hp.1⟩
  · rw [← List.append_assoc]; exact List.take_left' (by simp [hp.1, hq.1])
  · rw [← List.append_assoc]; exact List.drop_left' (by simp [hp.1, hq.1])

theorem sum_three {n : Nat} {f : List Nat → ℂ} {h : List Nat → List Nat → List Nat → ℂ}
    (e : ∀ p q r, Bits n p → Bits n q → Bits n r → f (p ++ (q ++ r)) = h p q r) :
    ∑ z ∈ allBits (n + (n + n)), f z = ∑ p ∈ allBits n, ∑ q ∈ allBits n, ∑ r ∈ allBits n, h p q r := by
  rw [sum_allBits_add]
  refine Finset.sum_congr rfl (fun p hp => ?_)
  rw [sum_allBits_add]
  exact Finset.sum_congr rfl (fun q hq => Finset.sum_congr rfl (fun r hr => e p q r (mem_allBits.1 hp) (mem_allBits.1 hq) (mem_allBits.1 hr)))

/-- **C70 (snake equations).** Bending a wire bundle down and up again gives the identity. -/
theorem C70_snake (n : Nat) : ∃ cap cup s s', generateCap (qubits n) (qubits n) = .ok cap ∧ generateCup (qubits n) (qubits n) = .ok cup ∧
    andThen (tensor (Diagram.id (qubits n)) cap) (tensor cup (Diagram.id (qubits n))) = .ok s ∧
    andThen (tensor cap (Diagram.id (qubits n))) (tensor (Diagram.id (qubits n)) cup) = .ok s' ∧
    ∃ F F', pureEval s = .ok F ∧ pureEval s' = .ok F' ∧ ∀ x y, Bits n x → Bits n y → F (x ++ y) = (if x = y then 1 else 0) ∧ F' (x ++ y) = if x = y then 1 else 0 := by
  obtain ⟨cap, e1, h1⟩ := generateCap_den n
  obtain ⟨cup, e2, h2⟩ := generateCup_den n
  have hl := qubits_length
  have a1 := (Den.ofId (qubits n)).tensor h1
  have a2 := h2.tensor (Den.ofId (qubits n))
  have b1 := h1.tensor (Den.ofId (qubits n))
  have b2 := (Den.ofId (qubits n)).tensor h2
  rw [List.append_assoc] at a2 b1
  obtain ⟨s, e3, h3⟩ := a1.comp a2
  obtain ⟨s', e4, h4⟩ := b1.comp b2
  obtain ⟨F, f1, f2⟩ := h3.eval
  obtain ⟨F', f1', f2'⟩ := h4.eval
  refine ⟨cap, cup, s, s', e1, e2, e3, e4, F, F', f1, f1', fun x y hx hy => ⟨?_, ?_⟩⟩
  · rw [f2 x y (by simpa [hl] using hx) (by simpa [hl] using hy)]
    simp only [List.length_append, hl, List.length_nil, List.take_zero, List.drop_zero]
    rw [sum_three (h := fun p q r => (if p = x then 1 else 0) * (if r = q.reverse then 1 else 0) * ((if q = p.reverse then 1 else 0) * if y = r then 1 else 0)) (fun p q r hp hq hr => by
      obtain ⟨t1, t2, t3, t4, t5, t6, t7, t8⟩ := split_three hp hq hr
      rw [t1, t2, t3, t4, t5, t6, t7, t8, List.take_of_length_le (l := x) (by rw [hx.1])])]
    rw [sum_allBits_pick hx, sum_allBits_pick hx.reverse, sum_allBits_pick hx]
    · simp [eq_comm]
    · intro r hr hne; simp [hne]
    · intro q hq hne; exact Finset.sum_eq_zero (fun r hr => by simp [hne])
    · intro p hp hne; exact Finset.sum_eq_zero (fun r hr => Finset.sum_eq_zero (fun r hr => by simp [hne]))
  · rw [f2' x y (by simpa [hl] using hx) (by simpa [hl] using hy)]
    simp only [List.length_append, hl, List.length_nil, List.take_zero, List.drop_zero]
    rw [sum_three (h := fun p q r => (if q = p.reverse then 1 else 0) * (if r = x then 1 else 0) * ((if y = p then 1 else 0) * if r = q.reverse then 1 else 0)) (fun p q r hp hq hr => by
      obtain ⟨t1, t2, t3, t4, t5, t6, t7, t8⟩ := split_three hp hq hr
      rw [t1, t2, t3, t4, t5, t6, t7, t8, List.take_of_length_le (l := y) (by rw [hy.1])])]
    rw [sum_allBits_pick hy, sum_allBits_pick hy.reverse, sum_allBits_pick hy]
    · simp [eq_comm]
    · intro r hr hne; simp [hne]
    · intro q hq hne; exact Finset.sum_eq_zero (fun r hr => by simp [hne])
    · intro p hp hne; exact Finset.sum_eq_zero (fun r hr => Finset.sum_eq_zero (fun r hr => by simp [Ne.symm hne]))

/-! ## Spiders -/

/-- The entries of the copying spider: the sum over the two basis states `b` of the indicator that all the legs are `b`. With at least one leg this
is 1 if all the legs agree and 0 otherwise; the spider without legs is the number 2. -/
def spiderAmp (x y : List Nat) : ℂ := ∑ b ∈ Finset.range 2, if ∀ c ∈ x ++ y, c = b then 1 else 0

theorem spiderAmp_legs {x y : List Nat} (h : x ++ y ≠ []) (hb : ∀ c ∈ x ++ y, c < 2) :
    spiderAmp x y = if ∀ c ∈ x ++ y, ∀ c' ∈ x ++ y, c = c' then 1 else 0 := by
  obtain ⟨c, hc⟩ := List.exists_mem_of_ne_nil _ h
  have h2 := hb c hc
  simp only [spiderAmp, Finset.sum_range_succ, Finset.range_zero, Finset.sum_empty, zero_add]
  by_cases hall : ∀ c ∈ x ++ y, ∀ c' ∈ x ++ y, c = c'
  · rw [if_pos hall]
    interval_cases c
    · rw [if_pos (fun d hd => hall d hd 0 hc), if_neg (fun h => by have := h 0 hc; omega), add_zero]
    · rw [if_neg (fun h => by have := h 1 hc; omega), if_pos (fun d hd => hall d hd 1 hc), zero_add]
  · rw [if_neg hall, if_neg (fun h => hall (fun d hd e he => by rw [h d hd, h e he])), if_neg (fun h => hall (fun d hd e he => by rw [h d hd, h e he])), add_zero]

def allEq (x : List Nat) (b : Nat) : ℂ := if ∀ c ∈ x, c = b then 1 else 0

theorem ite_and_mul (P Q : Prop) [Decidable P] [Decidable Q] : (if P ∧ Q then (1 : ℂ) else 0) = (if P then 1 else 0) * (if Q then 1 else 0) := by
  by_cases hp : P <;> by_cases hq : Q <;> simp [hp, hq]

theorem spiderAmp_eq (x y : List Nat) : spiderAmp x y = allEq x 0 * allEq y 0 + allEq x 1 * allEq y 1 := by
  have : ∀ b, (if ∀ c ∈ x ++ y, c = b then (1 : ℂ) else 0) = allEq x b * allEq y b := by
    intro b
    unfold allEq
    rw [← ite_and_mul]; simp only [List.forall_mem_append]
  simp only [spiderAmp, Finset.sum_range_succ, Finset.range_zero, Finset.sum_empty, zero_add, this]

theorem allEq_append (x y : List Nat) (b : Nat) : allEq (x ++ y) b = allEq x b * allEq y b := by
  unfold allEq
  rw [← ite_and_mul]; simp only [List.forall_mem_append]

theorem allEq_nil (b : Nat) : allEq [] b = 1 := by simp [allEq]
theorem allEq_one (c b : Nat) : allEq [c] b = if c = b then 1 else 0 := by simp [allEq]

theorem star_allEq (x : List Nat) (b : Nat) : star (allEq x b) = allEq x b := by unfold allEq; split_ifs <;> simp

/-- All boxes of the circuit keep the promises of their flags. -/
def AdjAll (d : Diagram QOb QBox) : Prop := ∀ l ∈ d.layers, l.box.Adj

theorem AdjAll.comp {f g h : Diagram QOb QBox} (hf : AdjAll f) (hg : AdjAll g) (hc : andThen f g = .ok h) : AdjAll h := by
  obtain ⟨_, rfl⟩ := andThen_ok_iff.1 hc
  intro l hl
  rcases List.mem_append.1 hl with hl | hl
  exacts [hf l hl, hg l hl]

theorem AdjAll.tensor {f g : Diagram QOb QBox} (hf : AdjAll f) (hg : AdjAll g) : AdjAll (tensor f g) := by
  intro l hl
  rw [tensor_layers] at hl
  rcases List.mem_append.1 hl with hl | hl
  · obtain ⟨l', h', rfl⟩ := List.mem_map.1 hl; exact hf l' h'
  · obtain ⟨l', h', rfl⟩ := List.mem_map.1 hl; exact hg l' h'

theorem AdjAll.ofId (t : List QOb) : AdjAll (Diagram.id t) := by simp [AdjAll, Diagram.id]
theorem AdjAll.ofBox {b : QBox} (h : b.Adj) : AdjAll (ofBox b) := by simpa [AdjAll, Diagram.ofBox] using h

theorem adj_sqrt2 : (sqrt 2).Adj := by
  show Complex.arg 2 ≠ Real.pi
  have : Complex.arg 2 = 0 := by
    have := Complex.arg_ofReal_of_nonneg (x := 2) (by norm_num)
    simpa using this
  rw [this]; exact Real.pi_ne_zero.symm

/-- What is proved of each spider. -/
def IsSpider (d : Diagram QOb QBox) (i o : Nat) : Prop := Den d (qubits i) (qubits o) spiderAmp ∧ AdjAll d

theorem spider_10 : ∃ d, andThen (tensor (ofBox (sqrt 2)) (ofBox H)) (ofBox (bra false)) = .ok d ∧ IsSpider d 1 0 := by
  obtain ⟨d, e, h⟩ := (den_sqrt2.tensor den_H).comp (den_bra false)
  refine ⟨d, e, h.congr (fun x y hx hy => ?_), ((AdjAll.ofBox adj_sqrt2).tensor (AdjAll.ofBox adj_gates.1)).comp (AdjAll.ofBox (b := bra false) trivial) e⟩
  obtain ⟨a, w, rfl, ha, hw⟩ := Bits.uncons (n := 0) hx
  obtain rfl := hw.eq_nil
  obtain rfl := hy.eq_nil
  have hs := sqrt2_mul_inv
  simp only [List.length_cons, List.length_nil, List.length_append, Nat.reduceAdd, sum_allBits_one, spiderAmp_eq, allEq_one, allEq_nil]
  interval_cases a <;> simp [hs]

theorem spider_21 : ∃ d, andThen (ofBox CX) (tensor (Diagram.id [.qubit]) (ofBox (bra false))) = .ok d ∧ IsSpider d 2 1 := by
  obtain ⟨d, e, h⟩ := den_CX.comp ((Den.ofId [.qubit]).tensor (den_bra false))
  refine ⟨d, e, h.congr (fun x y hx hy => ?_), (AdjAll.ofBox adj_gates.2.2.2.2.2.2.1).comp ((AdjAll.ofId _).tensor (AdjAll.ofBox (b := bra false) trivial)) e⟩
  obtain ⟨a, w, rfl, ha, hw⟩ := Bits.uncons (n := 1) hx
  obtain ⟨b, w', rfl, hb, hw'⟩ := Bits.uncons (n := 0) hw
  obtain rfl := hw'.eq_nil
  obtain ⟨c, v, rfl, hc, hv⟩ := Bits.uncons (n := 0) hy
  obtain rfl := hv.eq_nil
  simp only [List.length_cons, List.length_nil, List.length_append, Nat.reduceAdd, sum_allBits_two, spiderAmp_eq, allEq_one]
  interval_cases a <;> interval_cases b <;> interval_cases c <;> simp [allEq]

theorem spider_comp {f g : Diagram QOb QBox} {i o : Nat} (hf : IsSpider f i 1) (hg : IsSpider g 1 o) :
    ∃ d, andThen f g = .ok d ∧ IsSpider d i o := by
  obtain ⟨d, e, h⟩ := hf.1.comp hg.1
  refine ⟨d, e, h.congr (fun x y hx hy => ?_), hf.2.comp hg.2 e⟩
  rw [qubits_length, sum_allBits_one]
  simp only [spiderAmp_eq, allEq_one]
  norm_num

theorem spider_join {f g d2 : Diagram QOb QBox} {i j : Nat} (hf : IsSpider f i 1) (hg : IsSpider g j 1) (h2 : IsSpider d2 2 1) :
    ∃ d, andThen (tensor f g) d2 = .ok d ∧ IsSpider d (i + j) 1 := by
  have ht := hf.1.tensor hg.1
  rw [qubits_add, qubits_add] at ht
  obtain ⟨d, e, h⟩ := ht.comp h2.1
  refine ⟨d, e, h.congr (fun x y hx hy => ?_), (hf.2.tensor hg.2).comp h2.2 e⟩
  simp only [qubits_length] at hx hy ⊢
  obtain ⟨x, x', rfl, hx, hx'⟩ := hx.split
  rw [sum_allBits_two, List.take_left' hx.1, List.drop_left' hx.1]
  simp only [spiderAmp_eq, allEq_append, List.take_succ_cons, List.take_zero, List.drop_succ_cons, List.drop_zero]
  rw [show ∀ a b : Nat, ([a, b] : List Nat) = [a] ++ [b] from fun _ _ => rfl]
  simp only [show ∀ a b : Nat, ([a, b] : List Nat) = [a] ++ [b] from fun _ _ => rfl, allEq_append, allEq_one]
  norm_num

theorem spider_dagger {d : Diagram QOb QBox} {i o : Nat} (h : IsSpider d i o) : IsSpider (ddagger d) o i := by
  refine ⟨(h.1.ddagger h.2).congr (fun x y hx hy => ?_), ?_⟩
  · rw [spiderAmp_eq, spiderAmp_eq]
    simp only [star_add, star_mul, star_allEq]
  · have := (AdjOK.ddagger ⟨h.1.pure, h.2⟩).adj
    exact this

theorem spiderQ_spec (i o : Nat) : ∃ d, spiderQ i o = .ok d ∧ IsSpider d i o := by
  rw [spiderQ]
  split_ifs with h1 h2 h3 h4 h5 h6
  · obtain ⟨rfl, rfl⟩ := h1
    refine ⟨_, rfl, (Den.ofId _).congr (fun x y hx hy => ?_), AdjAll.ofId _⟩
    obtain ⟨a, w, rfl, ha, hw⟩ := Bits.uncons (n := 0) hx
    obtain rfl := hw.eq_nil
    obtain ⟨c, v, rfl, hc, hv⟩ := Bits.uncons (n := 0) hy
    obtain rfl := hv.eq_nil
    simp only [spiderAmp_eq, allEq_one]
    interval_cases a <;> interval_cases c <;> simp
  · obtain ⟨rfl, rfl⟩ := h2; exact spider_10
  · obtain ⟨rfl, rfl⟩ := h3; exact spider_21
  · obtain ⟨d, e, h⟩ := spiderQ_spec o i
    rw [e]
    exact ⟨_, rfl, spider_dagger h⟩
  · obtain ⟨d, e, h⟩ := spiderQ_spec i 1
    obtain ⟨d', e', h'⟩ := spiderQ_spec 1 o
    rw [e, e']
    exact spider_comp h h'
  · obtain rfl : o = 1 := by omega
    obtain ⟨d, e, h⟩ := spiderQ_spec (i - 1) 1
    obtain ⟨d', e', h'⟩ := spiderQ_spec 2 1
    rw [e, e']
    have hid : IsSpider (Diagram.id [.qubit]) 1 1 := by
      obtain ⟨d, e, h⟩ := spiderQ_spec 1 1
      rw [spiderQ, if_pos ⟨rfl, rfl⟩] at e
      cases e; exact h
    have := spider_join h hid h'
    rwa [show i - 1 + 1 = i by omega] at this
  · obtain rfl : o = 1 := by omega
    obtain ⟨d, e, h⟩ := spiderQ_spec (i / 2) 1
    obtain ⟨d', e', h'⟩ := spiderQ_spec 2 1
    rw [e, e']
    have := spider_join h h h'
    rwa [show i / 2 + i / 2 = i by omega] at this
termination_by 2 * (legWeight i + legWeight o) + (if o > i then 1 else 0)
decreasing_by
  all_goals
    have hi := legWeight_cases i
    have ho := legWeight_cases o
    have h1 := legWeight_cases 1
    have h2 := legWeight_cases 2
    have h3 := legWeight_cases (i - 1)
    have h4 := legWeight_cases (i / 2)
    first
    | (rw [if_neg (by omega), if_pos (by omega)]; omega)
    | (rw [if_pos (by omega), if_neg (by omega)]; omega)
    | (rw [if_neg (by omega), if_neg (by omega)]; omega)
    | (split_ifs <;> omega)

/-- **C70 (spiders).** A spider on a qubit, with any number of legs, is a circuit (without recursion errors) whose value is the copying tensor. -/
theorem C70_spider (i o : Nat) : ∃ d F, generateSpider [.qubit] i o = .ok d ∧ d.dom = qubits i ∧ d.cod = qubits o ∧ pureEval d = .ok F ∧
    ∀ x y, Bits i x → Bits o y → F (x ++ y) = spiderAmp x y := by
  obtain ⟨d, e, h, _⟩ := spiderQ_spec i o
  obtain ⟨F, f1, f2⟩ := h.eval
  refine ⟨d, F, ?_, h.dom, h.cod, f1, by simpa only [qubits_length] using f2⟩
  by_cases h1 : i = 1 ∧ o = 1
  · rw [spiderQ, if_pos h1] at e
    rw [generateSpider, if_pos h1]; exact e
  · rw [generateSpider, if_neg h1, if_neg (by simp), if_neg (by simp)]; exact e

/-- **C70 (other spiders).** Spiders on the empty type are the empty circuit; spiders on other types are identities for one leg on each side and
raise `NotImplementedError` otherwise, also on a single bit. -/
theorem C70_spider_types (ty : List QOb) (i o : Nat) :
    generateSpider ty 1 1 = .ok (Diagram.id ty) ∧ generateSpider [] i o = .ok (Diagram.id []) ∧
    (¬ (i = 1 ∧ o = 1) → ty ≠ [] → ty ≠ [.qubit] → generateSpider ty i o = .error .notImplementedError) := by
  refine ⟨by simp [generateSpider], ?_, fun h1 h2 h3 => by simp [generateSpider, h1, h2, h3]⟩
  by_cases h : i = 1 ∧ o = 1 <;> simp [generateSpider, h]

/-- A cap on bits silently has qubit wires. -/
theorem C70_refuted_bits : ∃ d, generateCap [.bit] [.bit] = .ok d ∧ d.cod = [.qubit, .qubit] := by
  refine ⟨_, rfl, rfl⟩

example : spiderAmp [0, 1] [0] = 0 ∧ spiderAmp [1, 1] [1] = 1 ∧ spiderAmp [] [] = 2 := by
  refine ⟨?_, ?_, ?_⟩ <;> simp only [spiderAmp_eq] <;> simp [allEq]
  norm_num

end
end QBox
end Lambeq
