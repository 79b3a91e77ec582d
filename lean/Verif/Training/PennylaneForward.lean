import Verif.Training.PennylaneModel

namespace Lambeq
open QBox
open FastSubs (param lookups lambdifyNum)
set_option linter.unusedSectionVars false
set_option linter.unusedSimpArgs false

namespace PlModel
noncomputable section
variable {K : Type} [DecidableEq K]

/-- The circuit of `k` is evaluated with the weights of the model to `a`. -/
def Evaluates (m : Model K) (k : K) (a : NdArray ℂ) : Prop := ∃ c p, m.circuits.lookup k = some c ∧ concrete m.symbols m.weights c = .ok p ∧ plEval p = .ok a

theorem evals_ok {m : Model K} {a : K → NdArray ℂ} : ∀ (ks : List K), (∀ k ∈ ks, Evaluates m k (a k)) → evals m ks = .ok (ks.map a) := by
  intro ks
  induction ks with
  | nil => intro _; rfl
  | cons k ks ih =>
    intro h
    obtain ⟨c, p, h1, h2, h3⟩ := h k (by simp)
    simp only [evals, h1, h2, h3, ih (fun j hj => h j (by simp [hj])), List.map_cons]

theorem stack_ok {as : List (NdArray ℂ)} {s : List Nat} (hne : as ≠ []) (h : ∀ a ∈ as, a.shape = s) : stack as = .ok ⟨squeeze (as.length :: s), (as.map NdArray.flat).flatten⟩ := by
  cases as with
  | nil => exact absurd rfl hne
  | cons a as =>
    have ha := h a (by simp)
    have : as.all (fun b => decide (b.shape = a.shape)) = true := by
      rw [List.all_eq_true]
      intro b hb
      simp [h b (by simp [hb]), ha]
    unfold stack
    show (if _ then _ else _) = _
    rw [if_pos this, ha, List.length_cons]

theorem forward_ok {m : Model K} {a : K → NdArray ℂ} {s : List Nat} {ks : List K} (hne : ks ≠ []) (h : ∀ k ∈ ks, Evaluates m k (a k)) (hs : ∀ k ∈ ks, (a k).shape = s) (hw : m.weights ≠ []) :
    forward m ks = .ok ⟨squeeze (ks.length :: s), (ks.map (fun k => (normalised m (a k)).flat)).flatten⟩ := by
  unfold forward
  rw [evals_ok ks h]
  simp only
  rw [stack_ok (s := s) (by simpa using hne)]
  · simp only [hw, and_false, if_false, List.length_map, List.map_map]
    rfl
  · intro b hb
    obtain ⟨x, hx, rfl⟩ := List.mem_map.1 hb
    obtain ⟨k, hk, rfl⟩ := List.mem_map.1 hx
    rw [← hs k hk]
    unfold normalised
    split_ifs <;> rfl

/-- The diagram `d` is the diagram `k` with the weights put for its symbols, as far as PennyLane is concerned (`C98_convert`), and can be evaluated (C95); `F` is its value. -/
structure Runs (m : Model K) (k : K) (d : Diagram QOb QBox) (F : List Nat → ℂ) : Prop where
  circuit : ∃ c, m.circuits.lookup k = some c ∧ Made c ∧ (∀ s ∈ symsOf c.ops, s.scale = 1 ∧ (param m.symbols m.weights s).isSome = true) ∧ toPennylane d m.probs = .ok (c.put m.value)
  shape : ∃ n gs tl, PlCirc IsBra d n gs tl ∧ Apart gs ∧ (m.probs = true → (factor gs).im = 0)
  value : eval d false = .ok F

theorem Runs.evaluates {m : Model K} {k : K} {d : Diagram QOb QBox} {F : List Nat → ℂ} (h : Runs m k d F) :
    Evaluates m k ⟨if d.cod.length = 0 then [1] else List.replicate d.cod.length 2, (allIdx (List.replicate d.cod.length 2)).map (fun β => if m.probs then (Complex.normSq (F β) : ℂ) else F β)⟩ := by
  obtain ⟨c, h1, h2, h3, h4⟩ := h.circuit
  obtain ⟨n, gs, tl, g1, g2, g3⟩ := h.shape
  refine ⟨c, c.put m.value, h1, C98_weights_partial h2 m h3, ?_⟩
  cases hp : m.probs with
  | true =>
    obtain ⟨G, e1, e2⟩ := C95_probabilities_partial g1 g2 (g3 hp)
    have : G = F := by
      have := e1.symm.trans h.value
      simpa using this
    subst this
    rw [hp] at h4
    unfold pennylane at e2
    rw [h4] at e2
    simpa using e2
  | false =>
    obtain ⟨G, e1, e2⟩ := C95_amplitudes_partial g1 g2
    have : G = F := by
      have := e1.symm.trans h.value
      simpa using this
    subst this
    rw [hp] at h4
    unfold pennylane at e2
    rw [h4] at e2
    simpa using e2

theorem squeeze_out (N n : Nat) : squeeze (N :: if n = 0 then [1] else List.replicate n 2) = N :: List.replicate n 2 := by
  by_cases hn : n = 0
  · simp [hn, squeeze]
  · obtain ⟨k, rfl⟩ := Nat.exists_eq_succ_of_ne_zero hn
    simp only [Nat.succ_ne_zero, if_false]
    unfold squeeze
    rw [if_neg]
    rw [List.getLast?_cons]
    have : (List.replicate (k + 1) 2).getLast? = some 2 := by simp [List.getLast?_replicate]
    simp [this]

/-- C98. With probabilities and normalisation, the row of each diagram is the Born rule of its value, normalised. All diagrams have `n` output wires. -/
theorem C98_born_partial {m : Model K} (hp : m.probs = true) (hn : m.normalize = true) (hw : m.weights ≠ []) {ks : List K} (hne : ks ≠ []) {n : Nat} {d : K → Diagram QOb QBox} {F : K → List Nat → ℂ}
    (h : ∀ k ∈ ks, Runs m k (d k) (F k) ∧ (d k).cod.length = n) :
    forward m ks = .ok ⟨ks.length :: List.replicate n 2, (ks.map (fun k => (allIdx (List.replicate n 2)).map (fun β =>
      ((Complex.normSq (F k β) / ((allIdx (List.replicate n 2)).map (fun γ => Complex.normSq (F k γ))).sum : ℝ) : ℂ)))).flatten⟩ := by
  have := forward_ok (m := m) (s := if n = 0 then [1] else List.replicate n 2) hne (fun k hk => (h k hk).1.evaluates) (fun k hk => by simp only [(h k hk).2]) hw
  rw [this, squeeze_out]
  congr 3
  apply List.map_congr_left
  intro k hk
  simp only [normalised, hp, hn, if_true, List.map_map, (h k hk).2]
  apply List.map_congr_left
  intro β _
  simp only [Function.comp_apply, Complex.ofReal_div]
  congr 1
  generalize allIdx (List.replicate n 2) = l
  induction l with
  | nil => simp
  | cons x l ih => simp only [List.map_cons, List.sum_cons, Complex.ofReal_add, ← ih]

/-- C98. Rows with a sum that is not 0 are distributions. -/
theorem C98_distribution (F : List Nat → ℂ) (n : Nat) (h : ((allIdx (List.replicate n 2)).map (fun γ => Complex.normSq (F γ))).sum ≠ 0) :
    (∀ β, 0 ≤ Complex.normSq (F β) / ((allIdx (List.replicate n 2)).map (fun γ => Complex.normSq (F γ))).sum) ∧
    ((allIdx (List.replicate n 2)).map (fun β => Complex.normSq (F β) / ((allIdx (List.replicate n 2)).map (fun γ => Complex.normSq (F γ))).sum)).sum = 1 := by
  constructor
  · intro β
    refine div_nonneg (Complex.normSq_nonneg _) (List.sum_nonneg ?_)
    intro x hx
    obtain ⟨γ, _, rfl⟩ := List.mem_map.1 hx
    exact Complex.normSq_nonneg _
  · have : ∀ (l : List (List Nat)) (c : ℝ), (l.map (fun β => Complex.normSq (F β) / c)).sum = (l.map (fun β => Complex.normSq (F β))).sum / c := by
      intro l c
      induction l with
      | nil => simp
      | cons x l ih => simp [ih, add_div]
    rw [this, div_self h]

/-- C98. With states and normalisation, the row is the value divided by the sum of its squares. -/
theorem C98_states_partial {m : Model K} (hp : m.probs = false) (hn : m.normalize = true) (hw : m.weights ≠ []) {ks : List K} (hne : ks ≠ []) {n : Nat} {d : K → Diagram QOb QBox} {F : K → List Nat → ℂ}
    (h : ∀ k ∈ ks, Runs m k (d k) (F k) ∧ (d k).cod.length = n) :
    forward m ks = .ok ⟨ks.length :: List.replicate n 2, (ks.map (fun k => (allIdx (List.replicate n 2)).map (fun β =>
      F k β / (((allIdx (List.replicate n 2)).map (fun γ => Complex.normSq (F k γ))).sum : ℝ)))).flatten⟩ := by
  have := forward_ok (m := m) (s := if n = 0 then [1] else List.replicate n 2) hne (fun k hk => (h k hk).1.evaluates) (fun k hk => by simp only [(h k hk).2]) hw
  rw [this, squeeze_out]
  congr 3
  apply List.map_congr_left
  intro k hk
  simp only [normalised, hp, hn, if_true, Bool.false_eq_true, if_false, List.map_map, (h k hk).2]
  rfl

/-- C98. Without normalisation, the rows are the values or their squares. -/
theorem C98_plain_partial {m : Model K} (hn : m.normalize = false) (hw : m.weights ≠ []) {ks : List K} (hne : ks ≠ []) {n : Nat} {d : K → Diagram QOb QBox} {F : K → List Nat → ℂ}
    (h : ∀ k ∈ ks, Runs m k (d k) (F k) ∧ (d k).cod.length = n) :
    forward m ks = .ok ⟨ks.length :: List.replicate n 2, (ks.map (fun k => (allIdx (List.replicate n 2)).map (fun β => if m.probs then (Complex.normSq (F k β) : ℂ) else F k β))).flatten⟩ := by
  have := forward_ok (m := m) (s := if n = 0 then [1] else List.replicate n 2) hne (fun k hk => (h k hk).1.evaluates) (fun k hk => by simp only [(h k hk).2]) hw
  rw [this, squeeze_out]
  congr 3
  apply List.map_congr_left
  intro k hk
  simp only [normalised, hn, Bool.false_eq_true, if_false, (h k hk).2]

/-- C98, refuted: the normalised states are not normalised: the sum of the squares of a row is the inverse of what it was. -/
theorem C98_refuted_norm (F : List Nat → ℂ) (n : Nat) :
    ((allIdx (List.replicate n 2)).map (fun β => Complex.normSq (F β / (((allIdx (List.replicate n 2)).map (fun γ => Complex.normSq (F γ))).sum : ℝ)))).sum =
      (((allIdx (List.replicate n 2)).map (fun γ => Complex.normSq (F γ))).sum)⁻¹ := by
  generalize hc : ((allIdx (List.replicate n 2)).map (fun γ => Complex.normSq (F γ))).sum = c
  have : ∀ (l : List (List Nat)), (l.map (fun β => Complex.normSq (F β / (c : ℂ)))).sum = (l.map (fun β => Complex.normSq (F β))).sum / c ^ 2 := by
    intro l
    induction l with
    | nil => simp
    | cons x l ih =>
      rw [List.map_cons, List.sum_cons, ih, Complex.normSq_div, Complex.normSq_ofReal, List.map_cons, List.sum_cons]
      ring
  rw [this, hc]
  by_cases h0 : c = 0
  · simp [h0]
  · field_simp

/-- C98, refuted: with probabilities and normalisation, the prediction for circuits with discards is 1, whatever the diagram and the weights; for one diagram it has no axis for the batch. -/
theorem C98_refuted_mixed {m : Model K} (hp : m.probs = true) (hn : m.normalize = true) (hw : m.weights ≠ []) {ks : List K} (hne : ks ≠ []) {x : K → ℝ}
    (h : ∀ k ∈ ks, Evaluates m k ⟨[], [(x k : ℂ)]⟩ ∧ x k ≠ 0) : forward m ks = .ok ⟨if ks.length = 1 then [] else [ks.length], List.replicate ks.length 1⟩ := by
  have := forward_ok (m := m) (s := []) hne (fun k hk => (h k hk).1) (fun k _ => rfl) hw
  rw [this]
  have hs : squeeze [ks.length] = if ks.length = 1 then [] else [ks.length] := by
    unfold squeeze
    simp only [List.getLast?_singleton, Option.some.injEq, List.dropLast_singleton]
  rw [hs]
  congr 2
  have : ∀ l : List K, (∀ k ∈ l, x k ≠ 0) → (l.map (fun k => (normalised m ⟨[], [(x k : ℂ)]⟩).flat)).flatten = List.replicate l.length 1 := by
    intro l
    induction l with
    | nil => intro _; rfl
    | cons k l ih =>
      intro hx
      have h1 : (normalised m ⟨[], [(x k : ℂ)]⟩).flat = [1] := by
        have := hx k (by simp)
        simp [normalised, hp, hn, this]
      rw [List.map_cons, List.flatten_cons, h1, ih (fun j hj => hx j (by simp [hj])), List.length_cons, List.replicate_succ]
      rfl
  exact this ks (fun k hk => (h k hk).2)

/-- C98. A diagram that was not given to `from_diagrams` raises `KeyError`; an empty batch raises `RuntimeError`; with probabilities and no weights, evaluation raises. -/
theorem C98_errors (m : Model K) : (∀ k ks, m.circuits.lookup k = none → forward m (k :: ks) = .error .keyError) ∧ forward m [] = .error .runtimeError ∧
    (m.probs = true → m.weights = [] → ∀ ks, ∃ e, forward m ks = .error e) := by
  refine ⟨?_, rfl, ?_⟩
  · intro k ks h
    simp [forward, evals, h]
  · intro hp hw ks
    unfold forward
    cases evals m ks with
    | error e => exact ⟨e, rfl⟩
    | ok as =>
      simp only
      cases stack (as.map (normalised m)) with
      | error e => exact ⟨e, rfl⟩
      | ok r => exact ⟨.indexError, by simp [hp, hw]⟩

/-! ## Examples -/

/-- A rotation by the symbol `a` of a qubit in the state 0. -/
def exSym : Sym ℝ := ⟨"a", 1, 1, 1⟩
def exCircuit (probs : Bool) : SCircuit := ⟨1, [⟨"Rx", [.symbol exSym], [0]⟩], [exSym], [], false, probs, 1⟩
def exModel (probs normalize : Bool) (w : ℝ) : Model Unit := ⟨[((), exCircuit probs)], [exSym], [w], probs, normalize⟩

open Classical in
/-- Some order for the sets of symbols. -/
def someOrder (l : List (Sym ℝ)) : List (Sym ℝ) := l.dedup

theorem someOrder_isSet : IsSet someOrder := fun l => ⟨List.nodup_dedup l, fun s => List.mem_dedup⟩

theorem exMade (probs : Bool) : Made (exCircuit probs) := by
  refine ⟨1, [⟨"Rx", [0], .symbol exSym⟩], [], false, probs, someOrder, someOrder_isSet, ?_⟩
  have : someOrder [exSym] = [exSym] := by simp [someOrder]
  simp [sFrom, takeS, SGate.number, sOps, plSig, sParams, symsOf, SOp.syms, exCircuit, this]

theorem exValue (probs normalize : Bool) (w : ℝ) : param (exModel probs normalize w).symbols (exModel probs normalize w).weights exSym = some w ∧ (exModel probs normalize w).value exSym = w := by
  have : param (exModel probs normalize w).symbols (exModel probs normalize w).weights exSym = some w := by simp [param, exModel]
  exact ⟨this, by simp [Model.value, this]⟩

/-- The hypotheses of `C98_born_partial`, `C98_states_partial` and `C98_plain_partial` are met by a rotation with any weight that is not 0. -/
theorem exRuns (probs normalize : Bool) {w : ℝ} (hw : w ≠ 0) : ∃ F, Runs (exModel probs normalize w) () (plain 1 [⟨[], rot .x w, []⟩]) F := by
  have hc : PlCirc IsBra (plain 1 [⟨[], rot .x w, []⟩]) 1 [⟨[], rot .x w, []⟩] [] := by
    refine ⟨by simp [plain], rfl, ?_, ?_, by simp⟩
    · simp [plain, Diagram.WT, Diagram.Chain, ketLayers, qubits, Layer.dom, Layer.cod, BoxSig.dom, BoxSig.cod, QBox.dom, QBox.cod, sig]
    · intro l hl
      rw [List.mem_singleton.1 hl]
      exact .inr (.inr (.inr ⟨_, [], _, _, rfl, .rx hw⟩))
  have ha : Apart [⟨[], rot .x w, []⟩] := List.isChain_singleton _
  have hf : factor [⟨[], rot .x w, []⟩] = 1 := by simp [factor, numberOf]
  obtain ⟨F, hF, _⟩ := C95_amplitudes_partial hc ha
  refine ⟨F, ⟨exCircuit probs, rfl, exMade probs, ?_, ?_⟩, ⟨1, _, [], hc, ha, fun _ => by rw [hf]; rfl⟩, hF⟩
  · intro s hs
    have : s = exSym := by simpa [symsOf, exCircuit, SOp.syms] using hs
    rw [this, (exValue probs normalize w).1]
    exact ⟨rfl, rfl⟩
  · have hm : mixedDiagram (plain 1 [⟨[], rot .x w, []⟩]) = false := by simp [mixedDiagram, plain, Diagram.boxes, ketLayers, isMixed, qubits]
    rw [plain_one _ 1 rfl rfl (by simp [Gate.number, nameHead]) hm]
    have hv : (exModel probs normalize w).value exSym.unscaled = w := (exValue probs normalize w).2
    have hv' : (exModel probs normalize w).probs = probs := rfl
    simp [plSig, nameHead, SCircuit.put, exCircuit, SOp.put, dataVal, hv, hv', Gate.op, plParams, hw, show exSym.scale = 1 from rfl]
    rfl

example : (exModel true true (1 / 3)).weights ≠ [] ∧ ∃ F, Runs (exModel true true (1 / 3)) () (plain 1 [⟨[], rot .x (1 / 3), []⟩]) F := ⟨by simp [exModel], exRuns _ _ (by norm_num)⟩

/-- The negated symbol raises. -/
example : ∃ c, Made c ∧ concrete [exSym] [1 / 3] c = .error .keyError := by
  refine ⟨⟨1, [⟨"Rx", [.symbol ⟨"a", 1, 1, -1⟩], [0]⟩], [⟨"a", 1, 1, -1⟩], [], false, true, 1⟩, ?_, ?_⟩
  · refine ⟨1, [⟨"Rx", [0], .symbol ⟨"a", 1, 1, -1⟩⟩], [], false, true, someOrder, someOrder_isSet, ?_⟩
    have : someOrder [⟨"a", 1, 1, -1⟩] = [⟨"a", 1, 1, -1⟩] := by simp [someOrder]
    simp [sFrom, takeS, SGate.number, sOps, plSig, sParams, symsOf, SOp.syms, this]
  · refine C98_refuted_scaled (K := Unit) (m := exModel true true (1 / 3)) (s := ⟨"a", 1, 1, -1⟩) ?_ ?_ ?_ ?_
    · refine ⟨1, [⟨"Rx", [0], .symbol ⟨"a", 1, 1, -1⟩⟩], [], false, true, someOrder, someOrder_isSet, ?_⟩
      have : someOrder [⟨"a", 1, 1, -1⟩] = [⟨"a", 1, 1, -1⟩] := by simp [someOrder]
      simp [sFrom, takeS, SGate.number, sOps, plSig, sParams, symsOf, SOp.syms, this]
    · simp [exModel, exSym]
    · simp [symsOf, SOp.syms]
    · norm_num

/-- The hypotheses of `C98_refuted_mixed` are met by two qubits, one discarded and one post-selected. -/
example : ∀ k : Unit, Evaluates (⟨[((), ⟨2, [], [], [(1, 0)], true, true, 1⟩)], [exSym], [1 / 3], true, true⟩ : Model Unit) k ⟨[], [((1 : ℝ) : ℂ)]⟩ ∧ (1 : ℝ) ≠ 0 := by
  intro k
  refine ⟨⟨⟨2, [], [], [(1, 0)], true, true, 1⟩, ⟨2, [], [(1, 0)], true, true, 1⟩, rfl, ?_, ?_⟩, one_ne_zero⟩
  · simp [concrete, symsOf, substOps]
  · have hz : plZeros 2 [1] (fun y => if y = [0, 0] then 1 else 0) = 1 := by
      unfold plZeros
      rw [Finset.sum_eq_single [0, 0]]
      · simp
      · intro y _ hne; simp [hne]
      · intro hn; exact absurd (mem_allBits.2 (by simp [Bits])) hn
    simp [plEval, plRun, plSelect, hz, List.replicate]

/-- A state of norm 2 becomes one of norm 1/2. -/
example : Complex.normSq (2 / ((Complex.normSq 2 : ℝ) : ℂ)) = 1 / 4 := by
  have : Complex.normSq 2 = 4 := by rw [show (2 : ℂ) = ((2 : ℝ) : ℂ) by norm_num, Complex.normSq_ofReal]; norm_num
  rw [this, Complex.normSq_div, this]
  rw [Complex.normSq_ofReal]
  norm_num

end
end PlModel
end Lambeq
