import Verif.Quantum.Unitary

/-!
# Unitary circuits and probabilities: the theorems (C73)
-/

namespace Lambeq
open Diagram
set_option linter.unusedSectionVars false
set_option linter.unusedSimpArgs false

namespace QBox
noncomputable section

/-! ## Specification -/

/-- The gates of quantum.py: the constants and rotations, controlled gates (1-qubit or already controlled, at any distance) and adjoints. -/
inductive GateBox : QBox → Prop
  | H : GateBox QBox.H
  | S : GateBox QBox.S
  | T : GateBox QBox.T
  | X : GateBox QBox.X
  | Y : GateBox QBox.Y
  | Z : GateBox QBox.Z
  | rot (ax : Axis) (θ : ℝ) : GateBox (rot ax θ)
  | controlled {u : QBox} {d : Int} : GateBox u → d ≠ 0 → GateBox (controlled u d)
  | daggered {b : QBox} : GateBox b → GateBox (daggered b)

/-- The boxes that cannot fail: gates, preparation of a qubit, measuring, encoding a bit, discarding and swaps. -/
inductive Channel : QBox → Prop
  | gate {b : QBox} : GateBox b → Channel b
  | ket (b : Bool) : Channel (ket b)
  | measure : Channel measure
  | encode : Channel encode
  | discard : Channel discard
  | swapQubit : Channel (swap .qubit .qubit)
  | swapBit : Channel (swap .bit .bit)

/-! ## Proof -/

theorem GateBox.spec {b : QBox} (h : GateBox b) : b.Good ∧ b.isMixed = false ∧ (∃ n, b.dom = qubits n ∧ b.cod = qubits n) ∧ Isometric b := by
  have hd : ∀ (n : String) (l : List ℂ), l.length = 4 → (TBox.gen n (qDims [QOb.qubit]) (qDims [QOb.qubit]) (some ⟨[2, 2], l⟩) 0).HasData := by
    intro n l hl
    simp [TBox.HasData, qDims, NdArray.OK, hl]
  obtain ⟨iH, iS, iT, iX, iY, iZ⟩ := isometric_gates
  induction h with
  | H => exact ⟨hd _ _ rfl, rfl, ⟨1, rfl, rfl⟩, iH⟩
  | S => exact ⟨hd _ _ rfl, rfl, ⟨1, rfl, rfl⟩, iS⟩
  | T => exact ⟨hd _ _ rfl, rfl, ⟨1, rfl, rfl⟩, iT⟩
  | X => exact ⟨hd _ _ rfl, rfl, ⟨1, rfl, rfl⟩, iX⟩
  | Y => exact ⟨hd _ _ rfl, rfl, ⟨1, rfl, rfl⟩, iY⟩
  | Z => exact ⟨hd _ _ rfl, rfl, ⟨1, rfl, rfl⟩, iZ⟩
  | rot ax θ => exact ⟨trivial, rfl, ⟨1, rfl, rfl⟩, isometric_rot ax θ⟩
  | @controlled u d hu hz ih =>
    obtain ⟨g, m, ⟨n, h1, h2⟩, hi⟩ := ih
    have hg : (QBox.controlled u d).Good := ⟨hz, g, by rw [h1, h2]⟩
    exact ⟨hg, m, ⟨_, rfl, rfl⟩, isometric_controlled hg hi⟩
  | daggered hb ih =>
    obtain ⟨g, m, ⟨n, h1, h2⟩, hi⟩ := ih
    exact ⟨g, m, ⟨n, h2, h1⟩, isometric_daggered g (by rw [h1, h2]) hi⟩

theorem GateBox.qubit {b : QBox} (h : GateBox b) : ∀ o ∈ b.dom ++ b.cod, o = QOb.qubit := by
  obtain ⟨_, _, ⟨n, h1, h2⟩, _⟩ := h.spec
  intro o ho
  rw [h1, h2] at ho
  rcases List.mem_append.1 ho with h | h <;> exact (List.mem_replicate.1 h).2

theorem GateBox.dbl {b : QBox} (h : GateBox b) : Dbl b := dbl_good h.spec.1 h.spec.2.1 h.qubit

theorem ket_dbl (b : Bool) : Dbl (ket b) := dbl_good trivial rfl (by simp [dom, cod, sig])
theorem bra_dbl (b : Bool) : Dbl (bra b) := dbl_good trivial rfl (by simp [dom, cod, sig])

theorem Channel.tp {b : QBox} (h : Channel b) : TP b := by
  cases h with
  | gate h => exact tp_isometric h.spec.1 h.spec.2.1 h.qubit h.spec.2.2.2
  | ket b => exact tp_isometric trivial rfl (by simp [dom, cod, sig]) (isometric_ket b)
  | measure => exact tp_measure
  | encode => exact tp_encode
  | discard => exact tp_discard
  | swapQubit => exact tp_swap _
  | swapBit => exact tp_swap _

theorem Channel.kraus {b : QBox} (h : Channel b) : Kraus b := by
  cases h with
  | gate h => exact kraus_dbl h.dbl
  | ket b => exact kraus_dbl (ket_dbl b)
  | measure => exact kraus_measure
  | encode => exact kraus_encode
  | discard => exact kraus_discard
  | swapQubit => exact kraus_dbl dbl_swap
  | swapBit => exact kraus_swapBit

theorem Channel.cq {b : QBox} (h : Channel b) : CQBox b := by
  cases h with
  | gate h => exact .inl ⟨h.spec.1, h.spec.2.1, h.qubit⟩
  | ket b => exact .inl ⟨trivial, rfl, by simp [dom, cod, sig]⟩
  | measure => exact .inr (.inl rfl)
  | encode => exact .inr (.inr (.inl rfl))
  | discard => exact .inr (.inr (.inr (.inl rfl)))
  | swapQubit => exact .inr (.inr (.inr (.inr (.inr (.inl rfl)))))
  | swapBit => exact .inr (.inr (.inr (.inr (.inr (.inr (.inl rfl))))))

/-! ## Theorems -/

/-- **C73 (gates).** The array of every gate is a unitary matrix. -/
theorem C73_gates {b : QBox} (h : GateBox b) :
    ∃ n a, b.dom = qubits n ∧ b.cod = qubits n ∧ b.array = .ok a ∧
      (∀ x x', Bits n x → Bits n x' → ∑ y ∈ allBits n, a.get (x ++ y) * star (a.get (x' ++ y)) = if x = x' then 1 else 0) ∧
      (∀ y y', Bits n y → Bits n y' → ∑ x ∈ allBits n, a.get (x ++ y) * star (a.get (x ++ y')) = if y = y' then 1 else 0) := by
  obtain ⟨g, _, ⟨n, h1, h2⟩, hi⟩ := h.spec
  obtain ⟨a, ea, _⟩ := g.array_ok
  have hr : ∀ x x', Bits n x → Bits n x' → ∑ y ∈ allBits n, a.get (x ++ y) * star (a.get (x' ++ y)) = if x = x' then 1 else 0 := by
    intro x x' hx hx'
    have := hi a ea x x' (by rw [h1, qubits_length]; exact hx) (by rw [h1, qubits_length]; exact hx')
    rwa [h2, qubits_length] at this
  exact ⟨n, a, h1, h2, ea, hr, isometric_square (U := fun x y => a.get (x ++ y)) hr⟩

/-- **C73 (adjoints).** The adjoint of a gate is a gate. -/
theorem C73_dagger {b : QBox} (h : GateBox b) : GateBox b.dagger := by
  induction h with
  | H => exact GateBox.H
  | S => exact GateBox.daggered GateBox.S
  | T => exact GateBox.daggered GateBox.T
  | X => exact GateBox.X
  | Y => exact GateBox.Y
  | Z => exact GateBox.Z
  | rot ax θ => exact GateBox.rot ax (-θ)
  | controlled _ hz ih => exact GateBox.controlled ih hz
  | daggered hb _ => exact hb

theorem count_le_mem {t : List QOb} (h : ∀ o ∈ t, o = QOb.qubit) : t.count .bit = 0 ∧ t.count .qubit = t.length ∧ t = qubits t.length := by
  refine ⟨List.count_eq_zero.2 (fun hb => by cases h _ hb), List.count_eq_length.2 (fun o ho => (h o ho).symm), ?_⟩
  exact List.eq_replicate_iff.2 ⟨rfl, h⟩

/-- **C73 (isometries).** A circuit of gates, swaps and qubit preparations preserves inner products: its rows are orthonormal. In particular a circuit without inputs
evaluates to a state of norm one. -/
theorem C73_isometry {d : Diagram QOb QBox} (hw : d.WT) (hd : ∀ o ∈ d.dom, o = QOb.qubit)
    (hb : ∀ l ∈ d.layers, GateBox l.box ∨ (∃ b, l.box = ket b) ∨ l.box = swap .qubit .qubit) :
    ∃ F, pureEval d = .ok F ∧ ∀ x x', Bits d.dom.length x → Bits d.dom.length x' →
      ∑ y ∈ allBits d.cod.length, F (x ++ y) * star (F (x' ++ y)) = if x = x' then 1 else 0 := by
  have hq : PureQ d := ⟨hw, hd, fun l hl => by
    rcases hb l hl with h | ⟨b, h⟩ | h
    · exact .inl ⟨h.spec.1, h.spec.2.1, h.qubit⟩
    · rw [h]; exact .inl ⟨trivial, rfl, by simp [dom, cod, sig]⟩
    · exact .inr h⟩
  have htp : ∀ l ∈ d.layers, TP l.box := fun l hl => by
    rcases hb l hl with h | ⟨b, h⟩ | h
    · exact (Channel.gate h).tp
    · rw [h]; exact (Channel.ket b).tp
    · rw [h]; exact Channel.swapQubit.tp
  obtain ⟨F, f1, f2⟩ := pureEval_spec hq.pure
  refine ⟨F, f1, fun x x' hx hx' => ?_⟩
  obtain ⟨cd1, cd2, _⟩ := count_le_mem hd
  obtain ⟨cc1, cc2, _⟩ := count_le_mem hq.cod
  obtain ⟨m1, m2, m3, m4⟩ := enc_spec (t := d.dom) (c := []) (q := x) (r := x') (by rw [cd1]; exact Bits.nil) (by rw [cd2]; exact hx) (by rw [cd2]; exact hx')
  have h1 := sum_mat_tr hw htp m1
  have e : ∀ y ∈ cqI.idx d.cod, cqI.mat d (enc d.dom [] x x') y * tr d.cod y =
      (fun (_ s t : List Nat) => (tnCat.interp.mat d x s * star (tnCat.interp.mat d x' t)) * if s = t then (1 : ℂ) else 0) (cOf d.cod y) (qOf d.cod y) (rOf d.cod y) := by
    intro y hy
    rw [(mat_double hw hd hq.dbl).2 _ m1 y hy, m3, m4, tr]
  rw [Finset.sum_congr rfl e] at h1
  have h2 := (sum_cq d.cod (fun (_ s t : List Nat) => (tnCat.interp.mat d x s * star (tnCat.interp.mat d x' t)) * if s = t then (1 : ℂ) else 0)).symm.trans h1
  rw [cc1, cc2, sum_allBits_zero, tr, m3, m4] at h2
  refine Eq.trans (Finset.sum_congr rfl (fun y hy => ?_)) h2
  have hy := mem_allBits.1 hy
  rw [sum_allBits_pick hy _ (fun r _ hne => by rw [if_neg (Ne.symm hne), mul_zero]), if_pos rfl, mul_one, f2 x y hx hy, f2 x' y hx' hy]

theorem gates_length {ls : List (Layer QOb QBox)} {a c : List QOb} (hc : Chain a ls c) (hb : ∀ l ∈ ls, GateBox l.box ∨ l.box = swap .qubit .qubit) :
    c.length = a.length := by
  induction ls generalizing a with
  | nil => obtain rfl : a = c := hc; rfl
  | cons l ls ih =>
    obtain ⟨h1, h2⟩ := hc
    rw [ih h2 (fun l' hl' => hb l' (List.mem_cons_of_mem _ hl')), ← h1]
    have : (BoxSig.cod l.box : List QOb).length = (BoxSig.dom l.box).length := by
      show l.box.cod.length = l.box.dom.length
      rcases hb l (List.mem_cons_self ..) with h | h
      · obtain ⟨_, _, ⟨n, e1, e2⟩, _⟩ := h.spec
        rw [e1, e2]
      · rw [h]; rfl
    simp [Layer.dom, Layer.cod, this]

/-- **C73 (unitary circuits).** A circuit of gates and swaps on `n` qubits evaluates to a unitary matrix. -/
theorem C73_unitary {d : Diagram QOb QBox} (hw : d.WT) {n : Nat} (hd : d.dom = qubits n) (hb : ∀ l ∈ d.layers, GateBox l.box ∨ l.box = swap .qubit .qubit) :
    d.cod = qubits n ∧ ∃ F, pureEval d = .ok F ∧
      (∀ x x', Bits n x → Bits n x' → ∑ y ∈ allBits n, F (x ++ y) * star (F (x' ++ y)) = if x = x' then 1 else 0) ∧
      (∀ y y', Bits n y → Bits n y' → ∑ x ∈ allBits n, F (x ++ y) * star (F (x ++ y')) = if y = y' then 1 else 0) := by
  have hdq : ∀ o ∈ d.dom, o = QOb.qubit := fun o ho => by rw [hd] at ho; exact (List.mem_replicate.1 ho).2
  have hl := gates_length hw hb
  have hq : PureQ d := ⟨hw, hdq, fun l hl => by
    rcases hb l hl with h | h
    · exact .inl ⟨h.spec.1, h.spec.2.1, h.qubit⟩
    · exact .inr h⟩
  have hc : d.cod = qubits n := by
    rw [(count_le_mem hq.cod).2.2, hl, hd, qubits_length]
  obtain ⟨F, f1, f2⟩ := C73_isometry hw hdq (fun l hl => (hb l hl).imp id .inr)
  rw [hd, hc, qubits_length] at f2
  exact ⟨hc, F, f1, f2, isometric_square (U := fun x y => F (x ++ y)) f2⟩

/-- **C73 (trace preservation).** A circuit of gates, preparations, measurements, encodings, discards and swaps preserves the trace: summing the diagonal of the output gives the
trace of the input. -/
theorem C73_trace {d : Diagram QOb QBox} (hw : d.WT) (hb : ∀ l ∈ d.layers, Channel l.box ∧ Balanced l) :
    ∃ F, eval d true = .ok F ∧ ∀ c q r, Bits (d.dom.count .bit) c → Bits (d.dom.count .qubit) q → Bits (d.dom.count .qubit) r →
      ∑ m ∈ allBits (d.cod.count .bit), ∑ s ∈ allBits (d.cod.count .qubit), F ((c ++ (q ++ r)) ++ (m ++ (s ++ s))) = if q = r then 1 else 0 := by
  have hcq : CQOK d := ⟨hw, fun l hl => ⟨(hb l hl).1.cq, (hb l hl).2⟩⟩
  obtain ⟨F, hF⟩ := C74_total hcq
  refine ⟨F, hF, fun c q r hc hq hr => ?_⟩
  obtain ⟨m1, m2, m3, m4⟩ := enc_spec (t := d.dom) hc hq hr
  have h1 := sum_mat_tr hw (fun l hl => (hb l hl).1.tp) m1
  have e : ∀ y ∈ cqI.idx d.cod, cqI.mat d (enc d.dom c q r) y * tr d.cod y =
      (fun (m s t : List Nat) => F ((c ++ (q ++ r)) ++ (m ++ (s ++ t))) * if s = t then (1 : ℂ) else 0) (cOf d.cod y) (qOf d.cod y) (rOf d.cod y) := by
    intro y hy
    have := eval_cq hcq hF _ m1 y hy
    rw [← this, flat, flat, m2, m3, m4, tr]
  rw [Finset.sum_congr rfl e] at h1
  have h2 := (sum_cq d.cod (fun (m s t : List Nat) => F ((c ++ (q ++ r)) ++ (m ++ (s ++ t))) * if s = t then (1 : ℂ) else 0)).symm.trans h1
  rw [tr, m3, m4] at h2
  refine Eq.trans (Finset.sum_congr rfl (fun m _ => Finset.sum_congr rfl (fun s hs => ?_))) h2
  rw [sum_allBits_pick (mem_allBits.1 hs) _ (fun r _ hne => by rw [if_neg (Ne.symm hne), mul_zero]), if_pos rfl, mul_one]

/-! ### Post-selection -/

theorem act_tr_bra {l : Layer QOb QBox} {b : Bool} (hl : l.box = bra b) {v : List Nat → ℂ} (hv : Positive l.dom v) :
    (∑ y ∈ cqI.idx l.cod, cqI.act l v y * tr l.cod y).re ≤ (∑ x ∈ cqI.idx l.dom, v x * tr l.dom x).re := by
  obtain ⟨left, b', right⟩ := l
  obtain rfl : b' = bra b := hl
  have hcod : (⟨left, bra b, right⟩ : Layer QOb QBox).cod = left ++ ([] ++ right) := List.append_assoc ..
  have hdom : (⟨left, bra b, right⟩ : Layer QOb QBox).dom = left ++ ([.qubit] ++ right) := List.append_assoc ..
  rw [hcod, hdom, cqI.sum_idx_append, cqI.sum_idx_append, Complex.re_sum, Complex.re_sum]
  refine Finset.sum_le_sum (fun u hu => ?_)
  rw [cqI.sum_idx_append, cqI.sum_idx_append, sum_cqIdx_nil, Finset.sum_comm, Complex.re_sum, Complex.re_sum]
  refine Finset.sum_le_sum (fun w hw => ?_)
  rw [cqI.act_split ⟨left, bra b, right⟩ v w (cqI.length_of_mem hu) (c := []) rfl]
  have hk : ∀ k, k < 4 → [k] ∈ cqI.idx [QOb.qubit] := fun k hk => (cqI.mem_idx _ _).2 (.cons hk .nil)
  have htr : ∀ k, k < 4 → tr (left ++ ([.qubit] ++ right)) (u ++ ([k] ++ w)) = tr left u * (tr [.qubit] [k] * tr right w) := fun k h => by
    rw [tr_append hu (cqI.append_mem (hk k h) hw), tr_append (hk k h) hw]
  have hten : ∀ k, k < 4 → cqI.ten (bra b) [k] [] = if k = 3 * b.toNat then 1 else 0 := by
    intro k h
    have : k = 0 ∨ k = 1 ∨ k = 2 ∨ k = 3 := by omega
    rw [(bra_dbl b).2 [k] (hk k h) [] (by simp [Interp.idx, cod, sig]), tnCat_std.ten (b := bra b) rfl rfl, tnCat_std.ten (b := bra b) rfl rfl]
    rcases this with rfl | rfl | rfl | rfl <;> cases b <;> simp [qOf, rOf, NdArray.get, ravel, dom, cod, sig]
  show ((∑ i ∈ cqI.idx [QOb.qubit], v (u ++ (i ++ w)) * cqI.ten (bra b) i []) * tr (left ++ ([] ++ right)) (u ++ ([] ++ w))).re ≤ _
  rw [sum_cqIdx_qubit, sum_cqIdx_qubit, hten 0 (by omega), hten 1 (by omega), hten 2 (by omega), hten 3 (by omega), htr 0 (by omega), htr 1 (by omega), htr 2 (by omega),
    htr 3 (by omega), tr_append hu (show [] ++ w ∈ cqI.idx ([] ++ right) from hw)]
  have t0 : tr [.qubit] [0] = 1 ∧ tr [.qubit] [1] = 0 ∧ tr [.qubit] [2] = 0 ∧ tr [.qubit] [3] = 1 := by simp [tr, qOf, rOf]
  rw [t0.1, t0.2.1, t0.2.2.1, t0.2.2.2]
  -- the diagonal entries are non-negative
  have hpos : ∀ k, k = 0 ∨ k = 3 → tr left u * tr right w ≠ 0 → 0 ≤ (v (u ++ ([k] ++ w))).re := by
    intro k hk3 hne
    have h1 : qOf left u = rOf left u := by by_contra h; exact hne (by rw [tr, if_neg h, zero_mul])
    have h2 : qOf right w = rOf right w := by by_contra h; exact hne (by rw [tr, tr, if_neg h, mul_zero])
    have hk4 : k < 4 := by omega
    have hv' : Positive (left ++ ([.qubit] ++ right)) v := hdom ▸ hv
    obtain ⟨p, p1, p2⟩ := hv'.diag (cqI.append_mem hu (cqI.append_mem (hk k hk4) hw)) (by
      obtain ⟨_, e1, e2⟩ := of_append (t := left) (t' := [.qubit] ++ right) (s := u) (s' := [k] ++ w) (cqI.length_of_mem hu)
      obtain ⟨_, e3, e4⟩ := of_append (t := [QOb.qubit]) (t' := right) (s := [k]) (s' := w) rfl
      rw [e1, e2, e3, e4, h1, h2]
      rcases hk3 with rfl | rfl <;> rfl)
    rw [p2]; simpa using p1
  have h01 : tr left u * tr right w = 0 ∨ tr left u * tr right w = 1 := by
    unfold tr; split <;> split <;> simp
  have e0 : tr ([] ++ right) ([] ++ w) = tr right w := rfl
  rw [e0]
  rcases h01 with h | h
  · have z : ∀ z : ℂ, tr left u * (z * tr right w) = z * (tr left u * tr right w) := fun z => by ring
    simp only [z, h, mul_zero, add_zero, le_refl]
  · have z : ∀ z : ℂ, tr left u * (z * tr right w) = z * (tr left u * tr right w) := fun z => by ring
    have n0 := hpos 0 (.inl rfl) (by rw [h]; exact one_ne_zero)
    have n3 := hpos 3 (.inr rfl) (by rw [h]; exact one_ne_zero)
    simp only [z, h, mul_one, mul_zero, add_zero, zero_add]
    cases b
    · simpa using n3
    · simpa using n0

theorem run_tr_le {ls : List (Layer QOb QBox)} {a c : List QOb} (hc : Chain a ls c) (h : ∀ l ∈ ls, Channel l.box ∨ ∃ b, l.box = bra b) {v : List Nat → ℂ} (hv : Positive a v) :
    (∑ y ∈ cqI.idx c, cqI.run ls v y * tr c y).re ≤ (∑ x ∈ cqI.idx a, v x * tr a x).re := by
  induction ls generalizing a v with
  | nil => obtain rfl : a = c := hc; exact le_refl _
  | cons l ls ih =>
    obtain ⟨h1, h2⟩ := hc
    subst h1
    have hk : Kraus l.box := by
      rcases h l (List.mem_cons_self ..) with g | ⟨b, g⟩
      · exact g.kraus
      · rw [g]; exact kraus_dbl (bra_dbl b)
    refine (ih h2 (fun l' hl' => h l' (List.mem_cons_of_mem _ hl')) (act_positive hk hv)).trans ?_
    rcases h l (List.mem_cons_self ..) with g | ⟨b, g⟩
    · exact le_of_eq (congrArg _ (act_tr g.tp v))
    · exact act_tr_bra g hv

/-- The probabilities of the outcomes `m` of the bits and, by measuring them, `s` of the qubits that leave the circuit, on the basis input `c`, `q`. -/
def prob (F : List Nat → ℂ) (c q m s : List Nat) : ℂ := F ((c ++ (q ++ q)) ++ (m ++ (s ++ s)))

/-- **C73 (probabilities).** The diagonal of the value of a circuit of gates, preparations, measurements, encodings, discards, swaps and post-selections consists of non-negative
real numbers whose sum is at most one, and is one if there is no post-selection. -/
theorem C73_probabilities {d : Diagram QOb QBox} (hw : d.WT) (hb : ∀ l ∈ d.layers, (Channel l.box ∨ ∃ b, l.box = bra b) ∧ Balanced l) :
    ∃ F, eval d true = .ok F ∧ ∀ c q, Bits (d.dom.count .bit) c → Bits (d.dom.count .qubit) q →
      ∃ P : List Nat → List Nat → ℝ,
        (∀ m s, Bits (d.cod.count .bit) m → Bits (d.cod.count .qubit) s → prob F c q m s = P m s ∧ 0 ≤ P m s) ∧
        (∑ m ∈ allBits (d.cod.count .bit), ∑ s ∈ allBits (d.cod.count .qubit), P m s ≤ 1) ∧
        ((∀ l ∈ d.layers, ∀ b, l.box ≠ bra b) → ∑ m ∈ allBits (d.cod.count .bit), ∑ s ∈ allBits (d.cod.count .qubit), P m s = 1) := by
  have hcq : CQOK d := ⟨hw, fun l hl => ⟨by
    rcases (hb l hl).1 with g | ⟨b, g⟩
    · exact g.cq
    · rw [g]; exact .inl ⟨trivial, rfl, by simp [dom, cod, sig]⟩, (hb l hl).2⟩⟩
  obtain ⟨F, hF⟩ := C74_total hcq
  refine ⟨F, hF, fun c q hc hq => ⟨fun m s => (prob F c q m s).re, ?_, ?_, ?_⟩⟩
  all_goals obtain ⟨m1, m2, m3, m4⟩ := enc_spec (t := d.dom) hc hq hq
  · intro m s hm hs
    obtain ⟨k1, k2, k3, k4⟩ := enc_spec (t := d.cod) hm hs hs
    have hp : Positive d.cod (cqI.mat d (enc d.dom c q q)) := by
      refine run_positive hw (fun l hl => ?_) (positive_basis m1 (by rw [m3, m4]))
      rcases (hb l hl).1 with g | ⟨b, g⟩
      · exact g.kraus
      · rw [g]; exact kraus_dbl (bra_dbl b)
    obtain ⟨p, p1, p2⟩ := hp.diag k1 (by rw [k3, k4])
    have h := eval_cq hcq hF _ m1 _ k1
    rw [flat, flat, m2, m3, m4, k2, k3, k4, p2] at h
    have h' : prob F c q m s = p := h
    show prob F c q m s = ((prob F c q m s).re : ℂ) ∧ 0 ≤ (prob F c q m s).re
    rw [h']
    exact ⟨by simp, by simpa using p1⟩
  · have h1 := run_tr_le hw (fun l hl => (hb l hl).1) (positive_basis m1 (by rw [m3, m4]))
    have h2 : ∑ x ∈ cqI.idx d.dom, (if x = enc d.dom c q q then (1 : ℂ) else 0) * tr d.dom x = 1 := by
      rw [Finset.sum_eq_single (enc d.dom c q q) (fun z _ hne => by rw [if_neg hne, zero_mul]) (fun hn => absurd m1 hn), if_pos rfl, one_mul, tr, m3, m4, if_pos rfl]
    rw [h2] at h1
    have e : ∀ y ∈ cqI.idx d.cod, cqI.mat d (enc d.dom c q q) y * tr d.cod y =
        (fun (m s t : List Nat) => F ((c ++ (q ++ q)) ++ (m ++ (s ++ t))) * if s = t then (1 : ℂ) else 0) (cOf d.cod y) (qOf d.cod y) (rOf d.cod y) := by
      intro y hy
      rw [← eval_cq hcq hF _ m1 y hy, flat, flat, m2, m3, m4, tr]
    have h3 := (Finset.sum_congr rfl e).trans (sum_cq d.cod (fun (m s t : List Nat) => F ((c ++ (q ++ q)) ++ (m ++ (s ++ t))) * if s = t then (1 : ℂ) else 0))
    have h4 : (∑ y ∈ cqI.idx d.cod, cqI.mat d (enc d.dom c q q) y * tr d.cod y).re ≤ 1 := h1.trans (by simp)
    rw [h3] at h4
    refine le_trans (le_of_eq ?_) h4
    simp only [Complex.re_sum]
    refine Finset.sum_congr rfl (fun m _ => Finset.sum_congr rfl (fun s hs => ?_))
    rw [← Complex.re_sum, sum_allBits_pick (mem_allBits.1 hs) _ (fun r _ hne => by rw [if_neg (Ne.symm hne), mul_zero]), if_pos rfl, mul_one]
    rfl
  · intro hnb
    obtain ⟨F', hF', h⟩ := C73_trace hw (fun l hl => ⟨(hb l hl).1.resolve_right (fun ⟨b, e⟩ => hnb l hl b e), (hb l hl).2⟩)
    cases hF'.symm.trans hF
    have := congrArg Complex.re (h c q q hc hq hq)
    simpa [prob, Complex.re_sum] using this

/-- **C73 (mixed states).** `MixedState` is not normalised: measuring it gives the "probabilities" 1 and 1. -/
theorem C73_refuted_mixedState : ∃ d F, andThen (ofBox mixedState) (ofBox measure) = .ok d ∧ eval d true = .ok F ∧ F [0] = 1 ∧ F [1] = 1 := by
  let d : Diagram QOb QBox := ⟨[], [.bit], [⟨[], mixedState, []⟩, ⟨[], measure, []⟩]⟩
  have hcq : CQOK d := ⟨⟨rfl, rfl, rfl⟩, fun l hl => by
    simp only [d, List.mem_cons, List.not_mem_nil, or_false] at hl
    rcases hl with rfl | rfl
    · exact ⟨.inr (.inr (.inr (.inr (.inl rfl)))), fun h => by cases h⟩
    · exact ⟨.inr (.inl rfl), fun h => by cases h⟩⟩
  obtain ⟨F, hF⟩ := C74_total hcq
  have key : ∀ m, m < 2 → F [m] = 1 := by
    intro m hm
    have h := eval_cq hcq hF [] (by simp [Interp.idx, d]) [m] ((cqI.mem_idx _ _).2 (.cons hm .nil))
    have hm2 : m = 0 ∨ m = 1 := by omega
    refine Eq.trans (show F [m] = F (flat d.dom [] ++ flat d.cod [m]) from rfl) (h.trans ?_)
    show cqI.run [⟨[], mixedState, []⟩, ⟨[], measure, []⟩] _ [m] = 1
    rw [Interp.run, Interp.run, Interp.run]
    show ∑ i ∈ cqI.idx [QOb.qubit], cqI.act ⟨[], mixedState, []⟩ _ ([] ++ i ++ []) * cqI.ten measure i [m] = 1
    rw [sum_cqIdx_qubit]
    have e : ∀ k v, v [] = (1 : ℂ) → cqI.act ⟨[], mixedState, []⟩ v ([] ++ [k] ++ []) = cqI.ten mixedState [] [k] := by
      intro k v hv
      show ∑ i ∈ cqI.idx ([] : List QOb), v ([] ++ i ++ []) * cqI.ten mixedState i [k] = _
      rw [sum_cqIdx_nil]
      simp [hv]
    rw [e 0 _ (if_pos rfl), e 1 _ (if_pos rfl), e 2 _ (if_pos rfl), e 3 _ (if_pos rfl)]
    simp only [ten_mixedState, ten_measure]
    rcases hm2 with rfl | rfl <;> simp [cOf, qOf, rOf, get_copyArray_pair, get_copyArray_three]
  exact ⟨d, F, rfl, hF, key 0 (by omega), key 1 (by omega)⟩

/-- **C73 (post-selected states).** Post-selection does not renormalise: preparing `|+>` and post-selecting 0 has the value 1/2. -/
theorem C73_refuted_postselection : ∃ d F, d.WT ∧ d.boxes = [ket false, H, bra false] ∧ eval d true = .ok F ∧ F [] = 1 / 2 := by
  let d : Diagram QOb QBox := ⟨[], [], [⟨[], ket false, []⟩, ⟨[], H, []⟩, ⟨[], bra false, []⟩]⟩
  have gH := GateBox.H.spec
  have hq : PureQ d := ⟨⟨rfl, rfl, rfl, rfl⟩, by simp [d], fun l hl => by
    simp only [d, List.mem_cons, List.not_mem_nil, or_false] at hl
    rcases hl with rfl | rfl | rfl
    · exact .inl ⟨trivial, rfl, by simp [dom, cod, sig]⟩
    · exact .inl ⟨gH.1, gH.2.1, GateBox.H.qubit⟩
    · exact .inl ⟨trivial, rfl, by simp [dom, cod, sig]⟩⟩
  obtain ⟨F, hF⟩ := C74_total hq.cq
  obtain ⟨G, g1, g2⟩ := pureEval_spec hq.pure
  have hmix : mixedDiagram d = false := by simp [mixedDiagram, d, Diagram.boxes, isMixed, H]
  have hG : eval d false = .ok G := by rw [eval, hmix]; exact g1
  refine ⟨d, F, hq.wt, rfl, hF, ?_⟩
  have h := C74_pure hq hF hG [] [] [] [] Bits.nil Bits.nil Bits.nil Bits.nil
  have hval : G [] = (((Real.sqrt 2)⁻¹ : ℝ) : ℂ) := by
    refine (g2 [] [] Bits.nil Bits.nil).trans ?_
    show tnCat.interp.run [⟨[], ket false, []⟩, ⟨[], H, []⟩, ⟨[], bra false, []⟩] _ [] = _
    have hH : H.array = .ok ⟨[2, 2], [((Real.sqrt 2)⁻¹ : ℝ) * 1, ((Real.sqrt 2)⁻¹ : ℝ) * 1, ((Real.sqrt 2)⁻¹ : ℝ) * 1, ((Real.sqrt 2)⁻¹ : ℝ) * (-1)]⟩ := by
      simp [H, array, TBox.array, qDims, NdArray.reshape]
    have tk := tnCat_std.ten (b := ket false) rfl rfl
    have tH := tnCat_std.ten (b := H) rfl hH
    have tb := tnCat_std.ten (b := bra false) rfl rfl
    have s1 : ∀ g : List Nat → ℂ, ∑ i ∈ tnCat.interp.idx [QOb.qubit], g i = g [0] + g [1] := fun g => by rw [idx_allBits]; exact sum_allBits_one g
    have s0 : ∀ g : List Nat → ℂ, ∑ i ∈ tnCat.interp.idx ([] : List QOb), g i = g [] := fun g => by rw [idx_allBits]; exact sum_allBits_zero g
    have aK : ∀ v : List Nat → ℂ, ∀ k, tnCat.interp.act ⟨[], ket false, []⟩ v [k] = v [] * tnCat.interp.ten (ket false) [] [k] := by
      intro v k
      show ∑ i ∈ tnCat.interp.idx ([] : List QOb), v ([] ++ i ++ []) * tnCat.interp.ten (ket false) i [k] = _
      rw [s0]; rfl
    have aH : ∀ v : List Nat → ℂ, ∀ k, tnCat.interp.act ⟨[], H, []⟩ v [k] = v [0] * tnCat.interp.ten H [0] [k] + v [1] * tnCat.interp.ten H [1] [k] := by
      intro v k
      show ∑ i ∈ tnCat.interp.idx [QOb.qubit], v ([] ++ i ++ []) * tnCat.interp.ten H i [k] = _
      rw [s1]; rfl
    have aB : ∀ v : List Nat → ℂ, tnCat.interp.act ⟨[], bra false, []⟩ v [] = v [0] * tnCat.interp.ten (bra false) [0] [] + v [1] * tnCat.interp.ten (bra false) [1] [] := by
      intro v
      show ∑ i ∈ tnCat.interp.idx [QOb.qubit], v ([] ++ i ++ []) * tnCat.interp.ten (bra false) i [] = _
      rw [s1]; rfl
    rw [Interp.run, Interp.run, Interp.run, Interp.run, aB, aH, aH, aK, aK]
    simp [tk, tH, tb, NdArray.get, ravel]
  simp only [List.append_nil] at h
  rw [h, hval]
  show _ * (starRingEnd ℂ) _ = _
  rw [Complex.conj_ofReal, ← Complex.ofReal_mul, ← mul_inv, Real.mul_self_sqrt (by norm_num)]
  norm_num

/-- The hypotheses are met: a Bell pair of which one half is measured and the other discarded. -/
example : ∃ F, eval (⟨[], [.bit], [⟨[], ket false, []⟩, ⟨[.qubit], ket false, []⟩, ⟨[], H, [.qubit]⟩, ⟨[], CX, []⟩, ⟨[], measure, [.qubit]⟩, ⟨[.bit], discard, []⟩]⟩ : Diagram QOb QBox) true = .ok F ∧
    F [0] + F [1] = 1 := by
  obtain ⟨F, hF, h⟩ := C73_trace (d := ⟨[], [.bit], [⟨[], ket false, []⟩, ⟨[.qubit], ket false, []⟩, ⟨[], H, [.qubit]⟩, ⟨[], CX, []⟩, ⟨[], measure, [.qubit]⟩, ⟨[.bit], discard, []⟩]⟩)
    ⟨rfl, rfl, rfl, rfl, rfl, rfl, rfl⟩ (fun l hl => by
      simp only [List.mem_cons, List.not_mem_nil, or_false] at hl
      rcases hl with rfl | rfl | rfl | rfl | rfl | rfl
      · exact ⟨.ket _, fun h => by cases h⟩
      · exact ⟨.ket _, fun h => by cases h⟩
      · exact ⟨.gate .H, fun h => by cases h⟩
      · exact ⟨.gate (.controlled .X (by decide)), fun h => by cases h⟩
      · exact ⟨.measure, fun h => by cases h⟩
      · exact ⟨.discard, fun h => by cases h⟩)
  have := h [] [] [] Bits.nil Bits.nil Bits.nil
  refine ⟨F, hF, ?_⟩
  simpa [sum_allBits_zero, sum_allBits_one, show List.count QOb.bit [QOb.bit] = 1 from rfl, show List.count QOb.qubit [QOb.bit] = 0 from rfl] using this

example : GateBox (controlled (controlled (daggered S) (-3)) 2) := .controlled (.controlled (.daggered .S) (by decide)) (by decide)

end
end QBox
end Lambeq
