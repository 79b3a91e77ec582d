import Verif.Quantum.MixedTheorems
import Mathlib.Algebra.BigOperators.Field

/-!
# The predictions of the exact quantum models (C80)

Models `lambeq/training/quantum_model.py`: `QuantumModel._normalise_vector` (70-86); `lambeq/training/numpy_model.py`: `NumpyModel.get_diagram_output` (139-148, after the substitution of
weights, which is C79), `_get_lambda` (63-94) and `get_diagram_output` with `use_jit` (121-137). Numbers are exact. `PytorchQuantumModel.get_diagram_output`
(pytorch_quantum_model.py:86-106) computes the same function of the diagram; its contraction order is C82.
-/

namespace Lambeq
namespace Predict
open QBox Diagram
set_option linter.unusedSectionVars false
set_option linter.unusedSimpArgs false

noncomputable section

/-- The smallest norm that is divided by, quantum_model.py:83. -/
def eps : ℝ := 1 / 10 ^ 9

/-- `_normalise_vector(predictions)`, quantum_model.py:70-86, for an array with `n` axes of dimension 2 (`predictions.shape` is empty when `n = 0`). -/
def normaliseVector (n : Nat) (f : List Nat → ℂ) : List Nat → ℝ :=
  if n = 0 then fun x => ‖f x‖ else fun x => ‖f x‖ / max eps (∑ y ∈ allBits n, ‖f y‖)

/-- The number of axes of `tn.contractors.auto(*d.to_tn()).tensor`, numpy_model.py:143: one per wire, or for mixed circuits one per bit and two per qubit (quantum.py:485-486, 498-507). -/
def outAxes (d : Diagram QOb QBox) : Nat := if mixedDiagram d then axes d.dom + axes d.cod else d.dom.length + d.cod.length

/-- The prediction for one diagram, numpy_model.py:141-147. -/
def predict (d : Diagram QOb QBox) : Except PyErr (List Nat → ℝ) :=
  match eval d false with
  | .error e => .error e
  | .ok F => .ok (normaliseVector (outAxes d) (if mixedDiagram d then F else fun x => ((‖F x‖ ^ 2 : ℝ) : ℂ)))

theorem eps_pos : 0 < eps := by unfold eps; positivity

/-- **C80 (predictions are distributions).** Whatever the diagram, the entries of a prediction with at least one axis are not negative and their sum is 1, unless the values before
normalisation sum to less than `1e-9`; then the sum is below 1. -/
theorem C80_distribution {d : Diagram QOb QBox} {p : List Nat → ℝ} (h : predict d = .ok p) (hn : outAxes d ≠ 0) :
    (∀ x, 0 ≤ p x) ∧ (∑ x ∈ allBits (outAxes d), p x ≤ 1) ∧
    ∃ F : List Nat → ℂ, eval d false = .ok F ∧
      (eps ≤ ∑ x ∈ allBits (outAxes d), (if mixedDiagram d then ‖F x‖ else ‖F x‖ ^ 2) ↔ ∑ x ∈ allBits (outAxes d), p x = 1) := by
  unfold predict at h
  cases hF : eval d false with
  | error e => rw [hF] at h; cases h
  | ok F =>
    rw [hF] at h
    simp only [Except.ok.injEq] at h
    subst h
    simp only [normaliseVector, if_neg hn]
    have hE := eps_pos
    set T := ∑ y ∈ allBits (outAxes d), ‖(if mixedDiagram d then F else fun x => ((‖F x‖ ^ 2 : ℝ) : ℂ)) y‖ with hT
    have hT0 : 0 ≤ T := Finset.sum_nonneg (fun _ _ => norm_nonneg _)
    have hmax : 0 < max eps T := lt_max_of_lt_left hE
    have hsum : ∑ x ∈ allBits (outAxes d), ‖(if mixedDiagram d then F else fun x => ((‖F x‖ ^ 2 : ℝ) : ℂ)) x‖ / max eps T = T / max eps T := by
      rw [← Finset.sum_div]
    have hT' : T = ∑ x ∈ allBits (outAxes d), (if mixedDiagram d then ‖F x‖ else ‖F x‖ ^ 2) := by
      rw [hT]
      apply Finset.sum_congr rfl
      intro x _
      cases mixedDiagram d <;> simp
    refine ⟨fun x => div_nonneg (norm_nonneg _) (le_of_lt hmax), ?_, F, rfl, ?_⟩
    · rw [hsum, div_le_one hmax]; exact le_max_right _ _
    · rw [hsum, ← hT', div_eq_one_iff_eq (ne_of_gt hmax)]
      constructor
      · intro h; rw [max_eq_right h]
      · intro h; rw [h]; exact le_max_left _ _

theorem PureQ_not_mixed {d : Diagram QOb QBox} (h : PureQ d) (hcod : ∀ o ∈ d.cod, o = QOb.qubit) : mixedDiagram d = false := by
  simp only [mixedDiagram, Bool.or_eq_false_iff, Bool.and_eq_false_iff, decide_eq_false_iff_not, List.any_eq_false]
  refine ⟨.inl (fun hb => ?_), fun b hb => ?_⟩
  · rcases List.mem_append.1 hb with hb | hb
    · exact absurd (h.dom _ hb) (by decide)
    · exact absurd (hcod _ hb) (by decide)
  · obtain ⟨l, hl, rfl⟩ := List.mem_map.1 hb
    rcases h.boxes l hl with hm | hm
    · simp [hm.2.1]
    · rw [hm]; simp [isMixed]

/-- **C80 (Born rule).** The prediction for a pure circuit on `n ≥ 1` qubits is the distribution of the outcomes of measuring them, given that the post-selections succeed:
`|amplitude|² / Σ |amplitude|²`. -/
theorem C80_born {f : Diagram QOb QBox} (hf : PureQ f) {n : Nat} (hn : n ≠ 0) (hdom : f.dom = []) (hcod : f.cod = qubits n) {G : List Nat → ℂ} (hG : eval f false = .ok G)
    (ht : eps ≤ ∑ x ∈ allBits n, ‖G x‖ ^ 2) : ∃ p, predict f = .ok p ∧ ∀ m, p m = ‖G m‖ ^ 2 / ∑ x ∈ allBits n, ‖G x‖ ^ 2 := by
  have hm : mixedDiagram f = false := PureQ_not_mixed hf (by rw [hcod]; intro o ho; exact List.eq_of_mem_replicate ho)
  have ha : outAxes f = n := by simp [outAxes, hm, hdom, hcod, qubits_length]
  refine ⟨_, by simp only [predict, hG, hm]; rfl, fun m => ?_⟩
  simp only [normaliseVector, ha, if_neg hn, Bool.false_eq_true, if_false]
  have hnn : ∀ x, ‖(((‖G x‖ ^ 2 : ℝ)) : ℂ)‖ = ‖G x‖ ^ 2 := fun x => by rw [Complex.norm_real, Real.norm_eq_abs, abs_of_nonneg (by positivity)]
  simp only [hnn]
  rw [max_eq_right ht]

/-- **C80 (measuring first).** Measuring all qubits before the prediction does not change it. -/
theorem C80_measured {f h : Diagram QOb QBox} (hf : PureQ f) {n : Nat} (hn : n ≠ 0) (hdom : f.dom = []) (hcod : f.cod = qubits n) (hc : andThen f (copies measure n) = .ok h)
    {p q : List Nat → ℝ} (hp : predict f = .ok p) (hq : predict h = .ok q) : ∀ m, Bits n m → p m = q m := by
  have hm : mixedDiagram f = false := PureQ_not_mixed hf (by rw [hcod]; intro o ho; exact List.eq_of_mem_replicate ho)
  have ha : outAxes f = n := by simp [outAxes, hm, hdom, hcod, qubits_length]
  obtain ⟨_, e⟩ := andThen_ok_iff.1 hc
  have hmh : mixedDiagram h = true := by
    obtain ⟨k, rfl⟩ := Nat.exists_eq_succ_of_ne_zero hn
    have : measure ∈ h.boxes := by
      rw [e]
      simp [Diagram.boxes, copies, tensor_layers, ofBox, Layer.extend]
    simp only [mixedDiagram, Bool.or_eq_true, List.any_eq_true]
    exact Or.inr ⟨_, this, rfl⟩
  have hcc : ∀ k, (copies measure k).cod = List.replicate k QOb.bit := by
    intro k
    induction k with
    | zero => rfl
    | succ k ih => simp [copies, tensor_cod, ih, ofBox, List.replicate_succ]; rfl
  have hdh : h.dom = [] := by rw [e]; exact hdom
  have hch : h.cod = List.replicate n QOb.bit := by rw [e]; exact hcc n
  have hah : outAxes h = n := by simp [outAxes, hmh, hdh, hch, axes, List.count_replicate]
  unfold predict at hp hq
  rw [C74_flag h false hmh] at hq
  cases hG : eval f false with
  | error e => rw [hG] at hp; cases hp
  | ok G =>
    cases hH : eval h true with
    | error e => rw [hH] at hq; cases hq
    | ok H =>
      rw [hG] at hp; rw [hH] at hq
      simp only [Except.ok.injEq, hm, hmh, Bool.false_eq_true, if_false, if_true, ha, hah] at hp hq
      subst hp; subst hq
      have hb := C74_born hf n hdom hcod hc hG hH
      have hv : ∀ m, Bits n m → ‖(((‖G m‖ ^ 2 : ℝ)) : ℂ)‖ = ‖H m‖ := by
        intro m hm'
        rw [hb m hm', Complex.normSq_eq_norm_sq]
      intro m hm'
      simp only [normaliseVector, if_neg hn]
      rw [hv m hm', Finset.sum_congr rfl (fun y hy => hv y (mem_allBits.1 hy))]

/-- **C80 (scalars, refuted).** A prediction without axes is not normalised: it is the squared modulus itself, which is not bounded by 1. -/
theorem C80_refuted_scalar : ∃ p, predict (ofBox (scalar 2)) = .ok p ∧ p [] = 4 := by
  have hgood : (scalar 2 : QBox).Good := trivial
  have hok : PureOK (ofBox (scalar 2)) := ⟨by decide, fun l hl => by simp [ofBox] at hl; subst hl; exact Or.inl hgood⟩
  obtain ⟨F, hF⟩ := C75_total hok
  obtain ⟨a, ea, hv⟩ := C75_box hgood hF
  have hm : mixedDiagram (ofBox (scalar 2)) = false := by simp [mixedDiagram, ofBox, Diagram.boxes, isMixed]; decide
  have he : eval (ofBox (scalar 2)) false = .ok F := by simp [eval, hm, hF]
  have ha : outAxes (ofBox (scalar 2)) = 0 := by simp only [outAxes, hm]; rfl
  refine ⟨_, by simp only [predict, he]; rfl, ?_⟩
  have h0 := hv [] [] ⟨rfl, by simp⟩ ⟨rfl, by simp⟩
  have ea' : a = ⟨[], [2]⟩ := by
    have : (scalar 2 : QBox).array = .ok ⟨[], [2]⟩ := rfl
    rw [this] at ea; cases ea; rfl
  rw [ea'] at h0
  simp only [normaliseVector, ha, hm, if_true, Bool.false_eq_true, if_false]
  have h0' : F [] = 2 := by rw [show ([] : List Nat) = [] ++ [] from rfl, h0]; simp [NdArray.get, ravel]
  rw [h0']
  norm_num

/-- **C80 (discarded qubits).** If some qubits of a pure circuit are discarded and `k` are kept, the prediction has `2 * k` axes: its entries are the absolute values of the entries of the
reduced density matrix, off-diagonal ones included, divided by their sum. -/
theorem C80_density {f h : Diagram QOb QBox} (hf : PureQ f) {k n : Nat} (hk : k ≠ 0) (hn : n ≠ 0) (hdom : f.dom = []) (hcod : f.cod = qubits k ++ qubits n)
    (hc : andThen f (Diagram.tensor (Diagram.id (qubits k)) (copies discard n)) = .ok h) {G : List Nat → ℂ} (hG : eval f false = .ok G) :
    outAxes h = k + k ∧ ∃ p, predict h = .ok p ∧ ∀ q r, Bits k q → Bits k r →
      p (q ++ r) = ‖∑ m ∈ allBits n, G (q ++ m) * star (G (r ++ m))‖ /
        max eps (∑ q' ∈ allBits k, ∑ r' ∈ allBits k, ‖∑ m ∈ allBits n, G (q' ++ m) * star (G (r' ++ m))‖) := by
  obtain ⟨_, e⟩ := andThen_ok_iff.1 hc
  have hmh : mixedDiagram h = true := by
    obtain ⟨j, rfl⟩ := Nat.exists_eq_succ_of_ne_zero hn
    have : discard ∈ h.boxes := by
      rw [e]
      simp [Diagram.boxes, copies, tensor_layers, ofBox, Layer.extend, Diagram.id]
    simp only [mixedDiagram, Bool.or_eq_true, List.any_eq_true]
    exact Or.inr ⟨_, this, rfl⟩
  have hcc : ∀ k, (copies discard k).cod = [] := by
    intro k
    induction k with
    | zero => rfl
    | succ k ih => simp [copies, tensor_cod, ih, ofBox]; rfl
  have hdh : h.dom = [] := by rw [e]; exact hdom
  have hch : h.cod = qubits k := by rw [e]; simp [tensor_cod, hcc, Diagram.id]
  have hqb : ∀ k, (qubits k).count .bit = 0 := by intro k; simp [qubits, List.count_replicate]
  have hqq : ∀ k, (qubits k).count .qubit = k := by intro k; simp [qubits, List.count_replicate]
  have hah : outAxes h = k + k := by simp [outAxes, hmh, hdh, hch, axes, hqb, hqq]
  obtain ⟨F, hF⟩ := C74_total hf.cq
  have hT : CQOK (Diagram.tensor (Diagram.id (qubits k)) (copies discard n)) :=
    (CQOK.ofId _).tensor (copies_ok (.inr (.inr (.inr (.inl rfl)))) (by simp) n) (.inl (fun l hl e => by rw [mem_copies l hl] at e; cases e))
  obtain ⟨H, hH⟩ := C74_total (hf.cq.comp hT hc)
  have hval : ∀ q r, Bits k q → Bits k r → H (q ++ r) = ∑ m ∈ allBits n, G (q ++ m) * star (G (r ++ m)) := by
    intro q r hq hr
    have h1 := C74_discard_all hf.cq (qubits k) n hcod hc hF hH [] [] q r (by rw [hdom]; exact Bits.nil) (by rw [hqb]; exact Bits.nil) (by rw [hqq]; exact hq) (by rw [hqq]; exact hr)
    simp only [List.nil_append] at h1
    rw [h1]
    refine Finset.sum_congr rfl (fun m hm => ?_)
    have hmb := mem_allBits.1 hm
    have hl : f.cod.length = k + n := by rw [hcod, List.length_append, qubits_length, qubits_length]
    have h2 := C74_pure hf hF hG [] [] (q ++ m) (r ++ m) (by rw [hdom]; exact Bits.nil) (by rw [hdom]; exact Bits.nil) (by rw [hl]; exact hq.append hmb) (by rw [hl]; exact hr.append hmb)
    simpa only [List.nil_append] using h2
  refine ⟨hah, _, by simp only [predict, C74_flag h false hmh, hH]; rfl, fun q r hq hr => ?_⟩
  simp only [normaliseVector, hah, hmh, if_true]
  rw [if_neg (by omega), hval q r hq hr, sum_allBits_add]
  congr 2
  refine Finset.sum_congr rfl (fun q' hq' => Finset.sum_congr rfl (fun r' hr' => ?_))
  rw [hval q' r' (mem_allBits.1 hq') (mem_allBits.1 hr')]

/-- A circuit of one box that prepares `(|0⟩ + |1⟩) ⊗ |0⟩`. -/
def plusZero : QBox := gen "s" [] [.qubit, .qubit] (some ⟨[2, 2], [1, 0, 1, 0]⟩) 0 false false

theorem plusZero_good : plusZero.Good := ⟨_, rfl, rfl, fun _ => rfl, fun h => absurd h (by decide)⟩

theorem plusZero_pure : PureQ (ofBox plusZero) := by
  refine ⟨by decide, ?_, ?_⟩
  · intro o ho; exact absurd (show o ∈ ([] : List QOb) from ho) (by simp)
  · intro l hl
    simp only [ofBox, List.mem_singleton] at hl
    subst hl
    exact Or.inl ⟨plusZero_good, rfl, by decide⟩

theorem plusZero_amp : ∃ G, eval (ofBox plusZero) false = .ok G ∧ G [0, 0] = 1 ∧ G [0, 1] = 0 ∧ G [1, 0] = 1 ∧ G [1, 1] = 0 := by
  obtain ⟨G, hG⟩ := C75_total plusZero_pure.pure
  have hm : mixedDiagram (ofBox plusZero) = false := by decide
  have he : eval (ofBox plusZero) false = .ok G := by simp [eval, hm, hG]
  obtain ⟨a, ea, hv⟩ := C75_box plusZero_good hG
  have ha : a = ⟨[2, 2], [1, 0, 1, 0]⟩ := by
    have : plusZero.array = .ok ⟨[2, 2], [1, 0, 1, 0]⟩ := rfl
    rw [this] at ea; cases ea; rfl
  subst ha
  have b : ∀ i j, i < 2 → j < 2 → Bits 2 [i, j] := fun i j hi hj => (Bits.one hj).cons hi
  have g : ∀ i j, i < 2 → j < 2 → G [i, j] = (⟨[2, 2], [1, 0, 1, 0]⟩ : NdArray ℂ).get [i, j] := fun i j hi hj => hv [] [i, j] Bits.nil (b i j hi hj)
  refine ⟨G, he, ?_, ?_, ?_, ?_⟩
  · rw [g 0 0 (by omega) (by omega)]; simp [NdArray.get, ravel]
  · rw [g 0 1 (by omega) (by omega)]; simp [NdArray.get, ravel]
  · rw [g 1 0 (by omega) (by omega)]; simp [NdArray.get, ravel]
  · rw [g 1 1 (by omega) (by omega)]; simp [NdArray.get, ravel]

/-- The hypotheses of `C80_born` and `C80_measured` hold of this circuit; the outcomes are 00 and 10 with probability one half each. -/
example : ∃ h p, andThen (ofBox plusZero) (copies measure 2) = .ok h ∧ predict (ofBox plusZero) = .ok p ∧ p [0, 0] = 1 / 2 ∧ p [1, 0] = 1 / 2 ∧ p [0, 1] = 0 := by
  obtain ⟨G, he, g00, g01, g10, g11⟩ := plusZero_amp
  have hs : ∑ x ∈ allBits 2, ‖G x‖ ^ 2 = 2 := by
    rw [sum_allBits_two, g00, g01, g10, g11]; norm_num
  obtain ⟨p, hp, hv⟩ := C80_born plusZero_pure (n := 2) (by decide) rfl rfl he (by rw [hs]; unfold eps; norm_num)
  exact ⟨_, p, rfl, hp, by rw [hv, hs, g00]; norm_num, by rw [hv, hs, g10]; norm_num, by rw [hv, hs, g01]; norm_num⟩

/-- **C80 (discarded qubits, refuted).** So the prediction for a circuit that discards qubits is not the distribution of the outcomes of the qubits it keeps: for `(|0⟩ + |1⟩) ⊗ |0⟩` with the second
qubit discarded, the outcomes 0 and 1 get a quarter each, and the rest goes to off-diagonal entries. -/
theorem C80_refuted_discard : ∃ h p, andThen (ofBox plusZero) (Diagram.tensor (Diagram.id (qubits 1)) (copies discard 1)) = .ok h ∧ predict h = .ok p ∧
    p [0, 0] = 1 / 4 ∧ p [1, 1] = 1 / 4 ∧ p [0, 1] = 1 / 4 ∧ p [1, 0] = 1 / 4 := by
  have hf := plusZero_pure
  obtain ⟨G, he, g00, g01, g10, g11⟩ := plusZero_amp
  have hc : ∃ h, andThen (ofBox plusZero) (Diagram.tensor (Diagram.id (qubits 1)) (copies discard 1)) = .ok h := ⟨_, rfl⟩
  obtain ⟨h, hc⟩ := hc
  obtain ⟨_, p, hp, hval⟩ := C80_density hf (k := 1) (n := 1) (by decide) (by decide) rfl rfl hc he
  have hmax : max eps (4 : ℝ) = 4 := max_eq_right (by unfold eps; norm_num)
  have key : ∀ i j, i < 2 → j < 2 → p [i, j] = 1 / 4 := by
    intro i j hi hj
    have := hval [i] [j] (Bits.one hi) (Bits.one hj)
    simp only [sum_allBits_one, List.cons_append, List.nil_append, g00, g01, g10, g11] at this
    rw [this]
    have hi' : i = 0 ∨ i = 1 := by omega
    have hj' : j = 0 ∨ j = 1 := by omega
    have h4 : ‖(1 : ℂ) * star (1 : ℂ) + 0 * star (0 : ℂ)‖ = 1 := by simp
    simp only [h4]
    rw [show (1 : ℝ) + 1 + (1 + 1) = 4 by norm_num, hmax]
    congr 1
    rcases hi' with rfl | rfl <;> rcases hj' with rfl | rfl <;> simp [g00, g01, g10, g11]
  exact ⟨h, p, hc, hp, key 0 0 (by omega) (by omega), key 1 1 (by omega) (by omega), key 0 1 (by omega) (by omega), key 1 0 (by omega) (by omega)⟩

end

/-! ## Compiled models -/

section jit
variable {S W D V : Type} [DecidableEq D]

/-- A `NumpyModel` with `use_jit=True`: its symbols and weights, and the cache `lambdas` (numpy_model.py:61). `jax.jit` runs the Python function once for each shape of its argument, when it is first called
with that shape, and keeps the result: what is kept depends on `self.symbols` at that time (numpy_model.py:81-93, quantum_model.py:136). An entry is a diagram, the number of weights, and the symbols at
the time it was compiled. -/
structure Jit (S W D : Type) where
  symbols : List S
  weights : List W
  compiled : List ((D × Nat) × List S)

/-- What a user can do: ask for a prediction, set the weights (an optimizer step), or load a checkpoint (quantum_model.py:102-115). -/
inductive Op (S W D : Type)
  | call (d : D)
  | setWeights (ws : List W)
  | load (symbols : List S) (ws : List W)

/-- One operation. `out symbols weights d` is what the model computes without compilation (C79, C80). -/
def Jit.step (out : List S → List W → D → Except PyErr V) (m : Jit S W D) : Op S W D → Jit S W D × Option (Except PyErr V)
  | .setWeights ws => ({ m with weights := ws }, none)
  | .load ss ws => ({ m with symbols := ss, weights := ws }, none)
  | .call d =>
    if m.weights = [] ∨ m.symbols = [] then (m, some (.error .valueError))
    else match m.compiled.find? (fun e => decide (e.1 = (d, m.weights.length))) with
      | some e => (m, some (out e.2 m.weights d))
      | none => match out m.symbols m.weights d with
        | .error e => (m, some (.error e))
        | .ok v => ({ m with compiled := ((d, m.weights.length), m.symbols) :: m.compiled }, some (.ok v))

/-- The answers of a sequence of operations. -/
def Jit.run (out : List S → List W → D → Except PyErr V) : Jit S W D → List (Op S W D) → List (Option (Except PyErr V))
  | _, [] => []
  | m, o :: os => (m.step out o).2 :: Jit.run out (m.step out o).1 os

/-- Specification: the model without compilation. -/
def plainRun (out : List S → List W → D → Except PyErr V) : List S → List W → List (Op S W D) → List (Option (Except PyErr V))
  | _, _, [] => []
  | ss, _, .setWeights ws :: os => none :: plainRun out ss ws os
  | _, _, .load ss ws :: os => none :: plainRun out ss ws os
  | ss, ws, .call d :: os => some (if ws = [] ∨ ss = [] then .error .valueError else out ss ws d) :: plainRun out ss ws os

/-- **C80 (compilation).** As long as the symbols of the model stay the same (weights may change at will), a compiled model gives the same answers as an uncompiled one. -/
theorem C80_jit_partial [DecidableEq S] (out : List S → List W → D → Except PyErr V) (ss : List S) (ws : List W) (ops : List (Op S W D))
    (hload : ∀ ss' ws', Op.load ss' ws' ∈ ops → ss' = ss) : Jit.run out ⟨ss, ws, []⟩ ops = plainRun out ss ws ops := by
  suffices h : ∀ (c : List ((D × Nat) × List S)) (ws : List W), (∀ e ∈ c, e.2 = ss) → Jit.run out ⟨ss, ws, c⟩ ops = plainRun out ss ws ops from h [] ws (by simp)
  induction ops with
  | nil => intro c ws _; rfl
  | cons o os ih =>
    intro c ws hc
    have ih' := ih (fun s w h => hload s w (by simp [h]))
    cases o with
    | setWeights ws' => simp only [Jit.run, Jit.step, plainRun]; rw [ih' c ws' hc]
    | load ss' ws' =>
      have := hload ss' ws' (by simp)
      subst this
      simp only [Jit.run, Jit.step, plainRun]; rw [ih' c ws' hc]
    | call d =>
      simp only [Jit.run, plainRun]
      by_cases h0 : ws = [] ∨ ss = []
      · simp only [Jit.step, if_pos h0]; rw [ih' c ws hc]
      · simp only [Jit.step, if_neg h0]
        cases hf : c.find? (fun e => decide (e.1 = (d, ws.length))) with
        | some e =>
          simp only
          rw [hc e (List.mem_of_find?_eq_some hf), ih' c ws hc]
        | none =>
          simp only
          cases ho : out ss ws d with
          | error e => simp only; rw [ih' c ws hc]
          | ok v =>
            simp only
            rw [ih' _ ws (by
              intro e he
              rcases List.mem_cons.mp he with rfl | he
              · rfl
              · exact hc e he)]

/-- **C80 (compilation, refuted after loading).** After a prediction, loading a checkpoint that lists the symbols in another order changes the weights but not the compiled function, which still takes them
in the old order. Here the output is the weight of the symbol 0. -/
theorem C80_refuted_jit_load : ∃ (ops : List (Op Nat Nat Unit)) (out : List Nat → List Nat → Unit → Except PyErr (Option Nat)),
    (∀ ss ws d, out ss ws d = .ok (((ss.zip ws).find? (fun p => p.1 = 0)).map (·.2))) ∧
    Jit.run out ⟨[0, 1], [5, 7], []⟩ ops = [some (.ok (some 5)), none, some (.ok (some 7))] ∧
    plainRun out [0, 1] [5, 7] ops = [some (.ok (some 5)), none, some (.ok (some 5))] :=
  ⟨[.call (), .load [1, 0] [7, 5], .call ()], fun ss ws _ => .ok (((ss.zip ws).find? (fun p => p.1 = 0)).map (·.2)), fun _ _ _ => rfl, rfl, rfl⟩

example : Jit.run (fun (ss ws : List Nat) (_ : Unit) => (.ok (ss.length + ws.sum) : Except PyErr Nat)) ⟨[0, 1], [5, 7], []⟩ [.call (), .setWeights [1, 1], .call ()] =
    [some (.ok 14), none, some (.ok 4)] := rfl
end jit

end Predict
end Lambeq
