import Verif.Quantum.UnitaryTheorems
import Verif.Ansatz.CircuitAr

/-!
# Circuit ansätze are unitary (C73)

No new code is modelled here: the circuits are those of `Ansatz/Circuit.lean` (ansatz/circuit.py).
-/

namespace Lambeq
open Diagram QBox
set_option linter.unusedSectionVars false
set_option linter.unusedSimpArgs false
noncomputable section

/-- The two rows of the gate are orthonormal. -/
def UGate (G : Nat → Nat → ℂ) : Prop :=
  ∀ a b, a < 2 → b < 2 → G a 0 * star (G b 0) + G a 1 * star (G b 1) = if a = b then 1 else 0

theorem uGate_of {g : QBox} (hg : GateBox g) (h1 : g.dom.length = 1) (h2 : g.cod.length = 1) : UGate (gateAmp g) := by
  obtain ⟨good, _, _, hi⟩ := hg.spec
  obtain ⟨a, ea, _⟩ := good.array_ok
  intro i j hi2 hj2
  have := hi a ea [i] [j] (by rw [h1]; exact ⟨rfl, by simpa using hi2⟩) (by rw [h1]; exact ⟨rfl, by simpa using hj2⟩)
  rw [h2, sum_allBits_one] at this
  simpa [gateAmp, ea, amp] using this

/-- The sum over the bit strings is a sum over the bit strings with 0 at position `t` and their neighbours. -/
theorem sum_at {n t : Nat} (ht : t < n) (f : List Nat → ℂ) :
    ∑ y ∈ allBits n, f y = ∑ y ∈ (allBits n).filter (fun y => y.getD t 0 = 0), (f (y.set t 0) + f (y.set t 1)) := by
  rw [Finset.sum_add_distrib, ← Finset.sum_filter_add_sum_filter_not (allBits n) (fun y => y.getD t 0 = 0) f]
  congr 1
  · refine Finset.sum_congr rfl (fun y hy => ?_)
    obtain ⟨h1, h2⟩ := Finset.mem_filter.1 hy
    have hb := mem_allBits.1 h1
    conv_lhs => rw [← set_getD_self y t (by rw [hb.1]; exact ht), h2]
  · refine Finset.sum_nbij' (fun y => y.set t 0) (fun y => y.set t 1) ?_ ?_ ?_ ?_ ?_
    · intro y hy
      obtain ⟨h1, h2⟩ := Finset.mem_filter.1 hy
      have hb := mem_allBits.1 h1
      exact Finset.mem_filter.2 ⟨mem_allBits.2 (bits_set hb (by omega)), by rw [getD_set _ _ _ _ (by rw [hb.1]; exact ht), if_pos rfl]⟩
    · intro y hy
      obtain ⟨h1, h2⟩ := Finset.mem_filter.1 hy
      have hb := mem_allBits.1 h1
      exact Finset.mem_filter.2 ⟨mem_allBits.2 (bits_set hb (by omega)), by rw [getD_set _ _ _ _ (by rw [hb.1]; exact ht), if_pos rfl]; omega⟩
    · intro y hy
      obtain ⟨h1, h2⟩ := Finset.mem_filter.1 hy
      have hb := mem_allBits.1 h1
      have h3 : y.getD t 0 = 1 := by
        have hlt : t < y.length := by rw [hb.1]; exact ht
        have := hb.2 (y.getD t 0) (by rw [NdArray.getD_length_lt hlt]; exact List.getElem_mem _)
        omega
      show (y.set t 0).set t 1 = y
      rw [List.set_set, ← h3, set_getD_self y t (by rw [hb.1]; exact ht)]
    · intro y hy
      obtain ⟨h1, h2⟩ := Finset.mem_filter.1 hy
      have hb := mem_allBits.1 h1
      show (y.set t 1).set t 0 = y
      rw [List.set_set]
      conv_rhs => rw [← set_getD_self y t (by rw [hb.1]; exact ht), h2]
    · intro y hy
      obtain ⟨h1, h2⟩ := Finset.mem_filter.1 hy
      have hb := mem_allBits.1 h1
      have h3 : y.getD t 0 = 1 := by
        have hlt : t < y.length := by rw [hb.1]; exact ht
        have := hb.2 (y.getD t 0) (by rw [NdArray.getD_length_lt hlt]; exact List.getElem_mem _)
        omega
      show f y = f ((y.set t 0).set t 1)
      rw [List.set_set, ← h3, set_getD_self y t (by rw [hb.1]; exact ht)]

/-- A gate that is not controlled by its own target preserves inner products. -/
theorem applied_inner {n t : Nat} {P : List Nat} {G : Nat → Nat → ℂ} (ht : t < n) (hP : t ∉ P) (hG : UGate G) (v w : List Nat → ℂ) :
    ∑ y ∈ allBits n, applied P t G v y * star (applied P t G w y) = ∑ y ∈ allBits n, v y * star (w y) := by
  rw [sum_at ht, sum_at ht]
  refine Finset.sum_congr rfl (fun y hy => ?_)
  obtain ⟨h1, _⟩ := Finset.mem_filter.1 hy
  have hb := mem_allBits.1 h1
  have hl : t < y.length := by rw [hb.1]; exact ht
  have hctrl : ∀ b, (∀ p ∈ P, (y.set t b).getD p 0 = 1) ↔ ∀ p ∈ P, y.getD p 0 = 1 := by
    intro b
    refine forall₂_congr (fun p hp => ?_)
    rw [getD_set y t b p hl, if_neg (fun (h : p = t) => hP (h ▸ hp))]
  have hval : ∀ (f : List Nat → ℂ) (b : Nat), applied P t G f (y.set t b) =
      if ∀ p ∈ P, y.getD p 0 = 1 then f (y.set t 0) * G 0 b + f (y.set t 1) * G 1 b else f (y.set t b) := by
    intro f b
    unfold applied
    rw [List.set_set, List.set_set, getD_set y t b t hl, if_pos rfl]
    exact if_congr (hctrl b) rfl rfl
  rw [hval, hval, hval, hval]
  by_cases h : ∀ p ∈ P, y.getD p 0 = 1
  · simp only [if_pos h]
    have g00 := hG 0 0 (by omega) (by omega)
    have g01 := hG 0 1 (by omega) (by omega)
    have g10 := hG 1 0 (by omega) (by omega)
    have g11 := hG 1 1 (by omega) (by omega)
    simp only [if_true, if_false, zero_ne_one, one_ne_zero] at g00 g01 g10 g11
    simp only [star_add, star_mul']
    linear_combination v (y.set t 0) * star (w (y.set t 0)) * g00 + v (y.set t 0) * star (w (y.set t 1)) * g01 + v (y.set t 1) * star (w (y.set t 0)) * g10 +
      v (y.set t 1) * star (w (y.set t 1)) * g11
  · simp only [if_neg h]

/-- The operation is a unitary gate on `n` qubits. -/
def UOp (n : Nat) (o : Op) : Prop := o.tgt < n ∧ o.tgt ∉ o.ctrl ∧ UGate (gateAmp o.gate)

theorem runOps_inner {n : Nat} {ops : List Op} (h : ∀ o ∈ ops, UOp n o) (v w : List Nat → ℂ) :
    ∑ y ∈ allBits n, runOps ops v y * star (runOps ops w y) = ∑ y ∈ allBits n, v y * star (w y) := by
  induction ops generalizing v w with
  | nil => rfl
  | cons o ops ih =>
    obtain ⟨h1, h2, h3⟩ := h o (List.mem_cons_self ..)
    exact (ih (fun o' ho' => h o' (List.mem_cons_of_mem _ ho')) _ _).trans (applied_inner h1 h2 h3 v w)

theorem uRot (ax : Axis) (θ : ℝ) : UGate (gateAmp (rot ax θ)) := uGate_of (.rot ax θ) rfl rfl
theorem uH : UGate (gateAmp H) := uGate_of .H rfl rfl
theorem uX : UGate (gateAmp X) := uGate_of .X rfl rfl
theorem uZ : UGate (gateAmp Z) := uGate_of .Z rfl rfl

theorem uRotRow (ax : Axis) (n : Nat) (p : Nat → ℝ) : ∀ o ∈ rotRow ax n p, UOp n o := by
  intro o ho
  obtain ⟨q, hq, rfl⟩ := List.mem_map.1 ho
  exact ⟨List.mem_range.1 hq, by simp, uRot _ _⟩

theorem uHRow (n : Nat) : ∀ o ∈ hRow n, UOp n o := by
  intro o ho
  obtain ⟨q, hq, rfl⟩ := List.mem_map.1 ho
  exact ⟨List.mem_range.1 hq, by simp, uH⟩

theorem uChain (n : Nat) (g : Nat → QBox) (hg : ∀ i, UGate (gateAmp (g i))) : ∀ o ∈ (List.range (n - 1)).map (fun i => (⟨[i], i + 1, g i⟩ : Op)), UOp n o := by
  intro o ho
  obtain ⟨q, hq, rfl⟩ := List.mem_map.1 ho
  have := List.mem_range.1 hq
  exact ⟨show q + 1 < n by omega, by simp, hg q⟩

theorem uRing1 {n : Nat} (hn : 2 ≤ n) (g : Nat → QBox) (hg : ∀ i, UGate (gateAmp (g i))) :
    ∀ o ∈ (List.range n).map (fun i => (⟨[i], (i + n - 1) % n, g i⟩ : Op)), UOp n o := by
  intro o ho
  obtain ⟨q, hq, rfl⟩ := List.mem_map.1 ho
  have hq := List.mem_range.1 hq
  refine ⟨Nat.mod_lt _ (by omega), ?_, hg q⟩
  simp only [List.mem_singleton]
  rcases Nat.eq_zero_or_pos q with rfl | h
  · rw [Nat.mod_eq_of_lt (by omega)]; omega
  · rw [show q + n - 1 = (q - 1) + n by omega, Nat.add_mod_right, Nat.mod_eq_of_lt (by omega)]; omega

theorem uRing2 {n : Nat} (hn : 2 ≤ n) (g : Nat → QBox) (hg : ∀ i, UGate (gateAmp (g i))) :
    ∀ o ∈ (List.range n).map (fun k => (⟨[(n - k) % n], (n - k + 1) % n, g k⟩ : Op)), UOp n o := by
  intro o ho
  obtain ⟨q, hq, rfl⟩ := List.mem_map.1 ho
  have hq := List.mem_range.1 hq
  refine ⟨Nat.mod_lt _ (by omega), ?_, hg q⟩
  simp only [List.mem_singleton]
  rcases Nat.eq_zero_or_pos q with rfl | h
  · rw [Nat.sub_zero, Nat.mod_self, Nat.add_mod_left, Nat.mod_eq_of_lt (by omega)]; omega
  · rw [Nat.mod_eq_of_lt (show n - q < n by omega)]
    by_cases h1 : q = 1
    · subst h1; rw [show n - 1 + 1 = n by omega, Nat.mod_self]; omega
    · rw [Nat.mod_eq_of_lt (by omega)]; omega

theorem uStrong {n : Nat} (hn : 2 ≤ n) {s : Int} (hs : ¬ (n : Int) ∣ s) : ∀ o ∈ (List.range n).map (fun (q : Nat) => (⟨[q], (((q : Int) + s) % n).toNat, X⟩ : Op)), UOp n o := by
  intro o ho
  obtain ⟨q, hq, rfl⟩ := List.mem_map.1 ho
  have hq := List.mem_range.1 hq
  have h1 := Int.emod_nonneg ((q : Int) + s) (show (n : Int) ≠ 0 by omega)
  have h2 := Int.emod_lt_of_pos ((q : Int) + s) (show (0 : Int) < n by omega)
  exact ⟨show (((q : Int) + s) % n).toNat < n by omega, by simpa using Ne.symm (step_ne hs (by omega)), uX⟩

theorem rangeOf_ndvd {ranges : Option (List Int)} {nl n l : Nat} (h : RangesOK ranges nl n) (hl : l < nl) (hn : 2 ≤ n) : ¬ (n : Int) ∣ rangeOf ranges n l := by
  cases ranges with
  | none =>
    show ¬ (n : Int) ∣ (l : Int) % (n - 1) + 1
    intro hd
    have h1 := Int.emod_nonneg (l : Int) (show (n : Int) - 1 ≠ 0 by omega)
    have h2 := Int.emod_lt_of_pos (l : Int) (show (0 : Int) < (n : Int) - 1 by omega)
    have := Int.le_of_dvd (by omega) hd
    omega
  | some rs =>
    obtain ⟨h1, h2⟩ := h rs rfl
    refine (h2 _ ?_).2
    show rs.getD l 0 ∈ rs
    rw [List.getD_eq_getElem?_getD, List.getElem?_eq_getElem (by omega), Option.getD_some]
    exact List.getElem_mem _

theorem gates_uOp (A : Ansatz) (sym : Nat → ℝ) (N : Nat) (hk : A.kind.OK A.nLayers N) : ∀ o ∈ A.gates sym N, UOp N o := by
  intro o ho
  unfold Ansatz.gates at ho
  split at ho
  · simp at ho
  split at ho
  · rename_i h0 h1
    subst h1
    obtain ⟨i, _, rfl⟩ := List.mem_map.1 ho
    exact ⟨show 0 < 1 by omega, by simp, uRot _ _⟩
  rename_i h0 h1
  have hn : 2 ≤ N := by omega
  unfold AnsatzKind.spec at ho
  rcases List.mem_append.1 ho with h | h
  · obtain ⟨l, hl, ho⟩ := List.mem_flatMap.1 h
    have hl := List.mem_range.1 hl
    generalize (fun i => sym (l * A.kind.rowLen N + i)) = p at ho
    cases hkind : A.kind with
    | iqp =>
      rw [hkind] at ho
      rcases List.mem_append.1 ho with h | h
      · exact uHRow N o h
      · exact uChain N _ (fun _ => uRot _ _) o h
    | sim14 =>
      rw [hkind] at ho
      rcases List.mem_append.1 ho with h | h
      · rcases List.mem_append.1 h with h | h
        · rcases List.mem_append.1 h with h | h
          · exact uRotRow _ N _ o h
          · exact uRing1 hn _ (fun _ => uRot _ _) o h
        · exact uRotRow _ N _ o h
      · exact uRing2 hn _ (fun _ => uRot _ _) o h
    | sim15 =>
      rw [hkind] at ho
      rcases List.mem_append.1 ho with h | h
      · rcases List.mem_append.1 h with h | h
        · rcases List.mem_append.1 h with h | h
          · exact uRotRow _ N _ o h
          · exact uRing1 hn (fun _ => X) (fun _ => uX) o h
        · exact uRotRow _ N _ o h
      · exact uRing2 hn (fun _ => X) (fun _ => uX) o h
    | sim4 =>
      rw [hkind] at ho
      rcases List.mem_append.1 ho with h | h
      · rcases List.mem_append.1 h with h | h
        · exact uRotRow _ N _ o h
        · exact uRotRow _ N _ o h
      · exact uChain N _ (fun _ => uRot _ _) o h
    | sim9 =>
      rw [hkind] at ho
      rcases List.mem_append.1 ho with h | h
      · rcases List.mem_append.1 h with h | h
        · exact uHRow N o h
        · exact uChain N (fun _ => Z) (fun _ => uZ) o h
      · exact uRotRow _ N _ o h
    | sim9cx =>
      rw [hkind] at ho
      rcases List.mem_append.1 ho with h | h
      · rcases List.mem_append.1 h with h | h
        · exact uHRow N o h
        · exact uChain N (fun _ => X) (fun _ => uX) o h
      · exact uRotRow _ N _ o h
    | strong ranges =>
      rw [hkind] at ho hk
      rcases List.mem_append.1 ho with h | h
      · obtain ⟨q, hq, h⟩ := List.mem_flatMap.1 h
        have hq := List.mem_range.1 hq
        simp only [List.mem_cons, List.not_mem_nil, or_false] at h
        rcases h with rfl | rfl | rfl <;> exact ⟨hq, by simp, uRot _ _⟩
      · exact uStrong hn (rangeOf_ndvd (hk hn) hl hn) o h
  · cases hkind : A.kind <;> rw [hkind] at h <;> simp only [List.not_mem_nil] at h
    split at h
    · exact uHRow N o h
    · simp at h

/-- **C73 (gates of an ansatz).** The gates that a circuit ansatz puts on `N` qubits map different inputs to orthonormal states, whatever the parameters. -/
theorem C73_ansatz_gates (A : Ansatz) (sym : Nat → ℝ) (N k : Nat) (hkN : k ≤ N) (hk : A.kind.OK A.nLayers N) {x x' : List Nat} (hx : Bits k x) (hx' : Bits k x') :
    ∑ z ∈ allBits N, A.amplitude sym N x z * star (A.amplitude sym N x' z) = if x = x' then 1 else 0 := by
  unfold Ansatz.amplitude
  rw [runOps_inner (gates_uOp A sym N hk)]
  have hb : Bits N (x ++ zeros (N - x.length)) := by
    have := hx.append (zeros_bits (N - x.length))
    rw [hx.1] at this ⊢
    rwa [show k + (N - k) = N by omega] at this
  rw [sum_allBits_pick hb _ (fun z _ hne => by rw [if_neg hne, zero_mul]), if_pos rfl, one_mul, hx.1, hx'.1]
  by_cases h : x = x'
  · simp [h]
  · rw [if_neg h, if_neg (fun e => h (List.append_cancel_right e))]; simp

/-- **C73 (ansatz circuits).** A box with no more input qubits than output qubits and no ancillas becomes a circuit that preserves inner products: a word becomes a state of norm one. -/
theorem C73_ansatz (A : Ansatz) (hr : A.rots ≠ []) (hd : A.discard = false) (hb : A.basis = Diagram.id [.qubit]) (sym : Nat → ℝ)
    (dom cod : Nat) (hdc : dom ≤ cod) (hk : A.kind.OK A.nLayers cod) :
    ∃ c F, A.arSized sym dom cod 0 = .ok c ∧ c.dom = qubits dom ∧ c.cod = qubits cod ∧ pureEval c = .ok F ∧
      ∀ x x', Bits dom x → Bits dom x' → ∑ y ∈ allBits cod, F (x ++ y) * star (F (x' ++ y)) = if x = x' then 1 else 0 := by
  have hN : max dom cod + 0 = cod := by omega
  obtain ⟨c, F, h1, h2, h3, h4, h5, h6, h7⟩ := C49_computational A hr hd hb sym dom cod 0 (by rw [hN]; exact hk)
  refine ⟨c, F, h1, h3, h4, h6, fun x x' hx hx' => ?_⟩
  rw [hN, Nat.sub_self] at h7
  rw [← C73_ansatz_gates A sym cod dom hdc hk hx hx']
  refine Finset.sum_congr rfl (fun y hy => ?_)
  rw [h7 x y hx (mem_allBits.1 hy), h7 x' y hx' (mem_allBits.1 hy)]
  simp [zeros]

/-- **C73 (discarding ansatz circuits).** With `discard=True` every box, whatever its numbers of wires and ancillas, becomes a circuit that preserves the trace. -/
theorem C73_ansatz_discard (A : Ansatz) (hr : A.rots ≠ []) (hd : A.discard = true) (sym : Nat → ℝ)
    (dom cod anc : Nat) (hk : A.kind.OK A.nLayers (max dom cod + anc)) :
    ∃ c H, A.arSized sym dom cod anc = .ok c ∧ c.dom = qubits dom ∧ c.cod = qubits cod ∧ eval c true = .ok H ∧
      ∀ q r, Bits dom q → Bits dom r → ∑ s ∈ allBits cod, H ((q ++ r) ++ (s ++ s)) = if q = r then 1 else 0 := by
  obtain ⟨c, H, h1, h2, h3, h4, h5, h6, h7⟩ := C49_discard A hr hd sym dom cod anc hk
  refine ⟨c, H, h1, h3, h4, h6, fun q r hq hr' => ?_⟩
  rw [← C73_ansatz_gates A sym (max dom cod + anc) dom (by omega) hk hq hr']
  conv_rhs => rw [show max dom cod + anc = cod + (max dom cod + anc - cod) by omega]
  rw [sum_allBits_add]
  refine Finset.sum_congr rfl (fun s hs => ?_)
  rw [h7 q r s s hq hr' (mem_allBits.1 hs) (mem_allBits.1 hs), ← show max dom cod + anc = cod + (max dom cod + anc - cod) by omega]

/-- **C73 (post-selecting ansatz circuits).** With post-selection a box becomes a circuit whose rows have norm at most one. -/
theorem C73_ansatz_postselect (A : Ansatz) (hr : A.rots ≠ []) (hd : A.discard = false) (hb : A.basis = Diagram.id [.qubit]) (sym : Nat → ℝ)
    (dom cod anc : Nat) (hk : A.kind.OK A.nLayers (max dom cod + anc)) :
    ∃ c F, A.arSized sym dom cod anc = .ok c ∧ c.dom = qubits dom ∧ c.cod = qubits cod ∧ pureEval c = .ok F ∧
      ∀ x, Bits dom x → ∑ y ∈ allBits cod, Complex.normSq (F (x ++ y)) ≤ 1 := by
  obtain ⟨c, F, h1, h2, h3, h4, h5, h6, h7⟩ := C49_computational A hr hd hb sym dom cod anc hk
  refine ⟨c, F, h1, h3, h4, h6, fun x hx => ?_⟩
  set N := max dom cod + anc with hN
  have h := C73_ansatz_gates A sym N dom (by omega) hk hx hx
  rw [if_pos rfl] at h
  have h' : ∑ z ∈ allBits N, Complex.normSq (A.amplitude sym N x z) = 1 := by
    have := congrArg Complex.re h
    simpa [Complex.re_sum, Complex.normSq_apply] using this
  rw [← h']
  conv_rhs => rw [show N = cod + (N - cod) by omega]
  rw [sum_allBits_add]
  refine Finset.sum_le_sum (fun y hy => ?_)
  rw [h7 x y hx (mem_allBits.1 hy), ← show N = cod + (N - cod) by omega]
  exact Finset.single_le_sum (f := fun z => Complex.normSq (A.amplitude sym N x (y ++ z))) (fun z _ => Complex.normSq_nonneg _) (mem_allBits.2 (zeros_bits _))

/-- The hypotheses are met: a noun on one qubit and a transitive verb on three. -/
example : ∃ c F, iqpExample.arSized (fun i => i) 0 3 0 = .ok c ∧ c.dom = qubits 0 ∧ c.cod = qubits 3 ∧ pureEval c = .ok F ∧
    ∀ x x', Bits 0 x → Bits 0 x' → ∑ y ∈ allBits 3, F (x ++ y) * star (F (x' ++ y)) = if x = x' then 1 else 0 :=
  C73_ansatz iqpExample (by simp [iqpExample]) rfl rfl _ 0 3 (by omega) trivial

end
end Lambeq
