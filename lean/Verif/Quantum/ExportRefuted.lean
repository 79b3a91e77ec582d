import Verif.Quantum.ExportTheorems

/-!
# Export of circuits: examples, and diagrams for which the export or the evaluation on a backend is wrong (C51)
-/

namespace Lambeq
open Diagram
set_option linter.unusedSectionVars false
set_option linter.unusedSimpArgs false

namespace QBox
noncomputable section

/-! ## Examples -/

/-- A Bell pair, the first qubit post-selected on 0, the second measured. -/
def bellPost : Diagram QOb QBox :=
  ⟨[], [.bit], [⟨[], ket false, []⟩, ⟨[.qubit], ket false, []⟩, ⟨[], H, [.qubit]⟩, ⟨[], CX, []⟩, ⟨[], bra false, [.qubit]⟩, ⟨[], measure, []⟩]⟩

theorem bellPost_exportable : Exportable bellPost 2 [⟨[], H, [.qubit]⟩, ⟨[], CX, []⟩] [⟨[], bra false, [.qubit]⟩, ⟨[], measure, []⟩] := by
  refine ⟨rfl, rfl, by decide, ?_, ?_⟩
  · simp only [List.forall_mem_cons, List.not_mem_nil, false_imp_iff, implies_true, and_true]
    exact ⟨.inr (.inr (.inr ⟨H, [], _, _, _, rfl, .h⟩)), .inr (.inr (.inr ⟨X, [1], _, _, _, rfl, .cx (by decide)⟩))⟩
  · simp only [List.forall_mem_cons, List.not_mem_nil, false_imp_iff, implies_true, and_true]
    exact ⟨.inr (.inr ⟨_, rfl⟩), .inl rfl⟩

/-- The hypotheses of `C51_export` and `C51_backend_ltr_partial` hold for it. -/
example : ∃ tk F, toTkCircuital bellPost = .ok tk ∧ eval bellPost true = .ok F ∧
      ∀ counts : Counts, (∀ e ∈ counts, e.1.length = tk.nBits) → (counts.map Prod.fst).Nodup → (∀ s, Bits tk.nBits s → counts.get s = tk.prob s) →
        ∃ result, backendEval bellPost counts = .ok (1, result) ∧ ∀ y, Bits 1 y → (result y : ℂ) = F y :=
  C51_backend_ltr_partial bellPost_exportable (k := 1) rfl (by simp)

/-- Nested controls on both sides, a rotation, a swap and a scalar. -/
example : Exportable ⟨[], [.bit, .bit], [⟨[], ket false, []⟩, ⟨[.qubit], ket false, []⟩, ⟨[.qubit, .qubit], ket false, []⟩, ⟨[.qubit], rot .x (1 / 3), [.qubit]⟩,
    ⟨[], controlled (controlled X (-1)) 1, []⟩, ⟨[.qubit], swap .qubit .qubit, []⟩, ⟨[.qubit], scalar 2, [.qubit, .qubit]⟩,
    ⟨[.qubit, .qubit], measure, []⟩, ⟨[.qubit], discard, [.bit]⟩, ⟨[], measure, [.bit]⟩]⟩ 3
    [⟨[.qubit], rot .x (1 / 3), [.qubit]⟩, ⟨[], controlled (controlled X (-1)) 1, []⟩, ⟨[.qubit], swap .qubit .qubit, []⟩, ⟨[.qubit], scalar 2, [.qubit, .qubit]⟩]
    [⟨[.qubit, .qubit], measure, []⟩, ⟨[.qubit], discard, [.bit]⟩, ⟨[], measure, [.bit]⟩] := by
  refine ⟨rfl, rfl, by decide, ?_, ?_⟩
  · simp only [List.forall_mem_cons, List.not_mem_nil, false_imp_iff, implies_true, and_true]
    refine ⟨.inr (.inr (.inr ⟨rot .x (1 / 3), [], _, _, _, rfl, .rx (by norm_num)⟩)), .inr (.inr (.inr ⟨X, [1, -1], _, _, _, rfl, .ccx (by decide) (by decide)⟩)),
      .inl rfl, .inr (.inl ⟨_, rfl⟩)⟩
  · simp only [List.forall_mem_cons, List.not_mem_nil, false_imp_iff, implies_true, and_true]
    exact ⟨.inl rfl, .inr (.inl rfl), .inl rfl⟩

/-! ## The right qubit measured before the left qubit -/

theorem readStep_X (L R : List QOb) (st : Info) : readStep st ⟨L, X, R⟩ = .ok { st with gates := st.gates ++ [⟨"X", [L.length], .none, false, none, none⟩] } := rfl
theorem readStep_ket (L R : List QOb) (b : Bool) (st : Info) : readStep st ⟨L, ket b, R⟩ = .ok st := rfl
theorem readStep_measure (L R : List QOb) (st : Info) : readStep st ⟨L, measure, R⟩ = match st.avail[L.count .qubit]? with
    | none => .error .indexError
    | some q => .ok { st with avail := st.avail.erase q, bitmap := dictSet st.bitmap q st.bitmap.length } := rfl
theorem readStep_bra (L R : List QOb) (b : Bool) (st : Info) : readStep st ⟨L, bra b, R⟩ = match st.avail[L.count .qubit]? with
    | none => .error .indexError
    | some q => .ok { st with avail := st.avail.erase q, bitmap := dictSet st.bitmap q st.bitmap.length, postmap := dictSet st.postmap q (if b then 1 else 0) } := rfl

theorem bits_two {y : List Nat} (h : Bits 2 y) : y = [0, 0] ∨ y = [0, 1] ∨ y = [1, 0] ∨ y = [1, 1] := by
  obtain ⟨a, y, rfl, ha, h⟩ := Bits.uncons (n := 1) h
  obtain ⟨b, y, rfl, hb, h⟩ := Bits.uncons (n := 0) h
  obtain rfl := h.eq_nil
  rcases (by omega : a = 0 ∨ a = 1) with rfl | rfl <;> rcases (by omega : b = 0 ∨ b = 1) with rfl | rfl <;> simp

/-- Two qubits, an `X` on the second one, measured into the bits `(1, 0), (0, 1)`. -/
def tkOne (post : List (Nat × Nat)) : TkCircuit := ⟨2, 2, [⟨"X", [], false, [1]⟩], [(1, 0), (0, 1)], post, 1⟩

theorem tkOne_prob (post : List (Nat × Nat)) {s : List Nat} (hs : Bits 2 s) : (tkOne post).prob s = if s = [1, 0] then 1 else 0 := by
  have hst : ∀ y, Bits 2 y → (tkOne post).state y = if y = [0, 1] then 1 else 0 := by
    intro y hy
    rcases bits_two hy with rfl | rfl | rfl | rfl <;>
      simp [TkCircuit.state, tkOne, TkCmd.apply, applied, baseOp, ofMatrix, tkX]
  unfold TkCircuit.prob
  rw [Finset.sum_eq_single [0, 1]]
  · rw [hst [0, 1] (by simp [Bits])]
    rcases bits_two hs with rfl | rfl | rfl | rfl <;> simp [tkOne]
  · intro y hy hne
    rw [hst y (mem_allBits.1 hy), if_neg hne]; simp
  · intro hn; exact absurd (mem_allBits.2 (by simp [Bits] : Bits 2 [0, 1])) hn

/-- The second qubit is measured, then the first qubit is post-selected on 0. `to_circuital` builds diagrams of this form (quantum.py:1486-1503). -/
def measureThenBra : Diagram QOb QBox :=
  ⟨[], [.bit], [⟨[], ket false, []⟩, ⟨[.qubit], ket false, []⟩, ⟨[.qubit], X, []⟩, ⟨[.qubit], measure, []⟩, ⟨[], bra false, [.bit]⟩]⟩

theorem measureThenBra_exportable : Exportable measureThenBra 2 [⟨[.qubit], X, []⟩] [⟨[.qubit], measure, []⟩, ⟨[], bra false, [.bit]⟩] := by
  refine ⟨rfl, rfl, by decide, ?_, ?_⟩
  · simp only [List.forall_mem_cons, List.not_mem_nil, false_imp_iff, implies_true, and_true]
    exact .inr (.inr (.inr ⟨X, [], _, _, _, rfl, .x⟩))
  · simp only [List.forall_mem_cons, List.not_mem_nil, false_imp_iff, implies_true, and_true]
    exact ⟨.inl rfl, .inr (.inr ⟨_, rfl⟩)⟩

theorem measureThenBra_tk : toTkCircuital measureThenBra = .ok (tkOne [(0, 0)]) := by
  have hc : isCircuital measureThenBra = true := measureThenBra_exportable.circuital
  have hn : numKets measureThenBra.layers = 2 := measureThenBra_exportable.numKets
  unfold toTkCircuital readoff
  rw [hc, hn]
  simp [readLoop, readStep_X, readStep_ket, readStep_measure, readStep_bra, measureThenBra, dictSet, List.range_succ, addGates, addGate, opSig, phaseParams, tkOne]

/-- **C51 refuted (post-selection).** `post_selection` maps qubits to values (quantum.py:1693), but `get_counts` uses its keys as positions in the bitstring
(tk.py:184-188). The entry 1 of the diagram has the value 1, on an exact backend it has the value 0. -/
theorem C51_refuted_postselection : ∃ F result, eval measureThenBra true = .ok F ∧ F [1] = 1 ∧
    (∀ s, Bits 2 s → Counts.get [([1, 0], 1)] s = (tkOne [(0, 0)]).prob s) ∧ backendEval measureThenBra [([1, 0], 1)] = .ok (1, result) ∧ result [1] = 0 := by
  obtain ⟨tk, F, e1, e2, e3, e4, e5, e6, e7, e8, e9, e10⟩ := C51_export measureThenBra_exportable (k := 1) rfl
  cases measureThenBra_tk.symm.trans e1
  refine ⟨F, fun β => Counts.get [] β, e2, ?_, ?_, ?_, rfl⟩
  · rw [e10 [1, 0] [1] (by simp [Bits, tkOne]) (by simp [Bits]) (by simp [tkOne]) ?_, tkOne_prob _ (by simp [Bits])]
    · simp [tkOne]
    · have : openQubits (tkOne [(0, 0)]) = [1] := by simp [openQubits, tkOne, List.range_succ]
      rw [this]
      intro j q i hj hi
      cases j with
      | zero =>
        obtain rfl : 1 = q := by simpa using hj
        obtain rfl : i = 0 := by simpa [tkOne] using hi
        rfl
      | succ j => simp at hj
  · intro s hs
    rw [tkOne_prob _ hs]
    rcases bits_two hs with rfl | rfl | rfl | rfl <;> simp [Counts.get]
  · rw [backendEval, measureThenBra_tk]
    simp [getCounts, postSelect, agrees, tkOne, resultOf]

/-- The second qubit is measured before the first. -/
def measureRightFirst : Diagram QOb QBox :=
  ⟨[], [.bit, .bit], [⟨[], ket false, []⟩, ⟨[.qubit], ket false, []⟩, ⟨[.qubit], X, []⟩, ⟨[.qubit], measure, []⟩, ⟨[], measure, [.bit]⟩]⟩

theorem measureRightFirst_exportable : Exportable measureRightFirst 2 [⟨[.qubit], X, []⟩] [⟨[.qubit], measure, []⟩, ⟨[], measure, [.bit]⟩] := by
  refine ⟨rfl, rfl, by decide, ?_, ?_⟩
  · simp only [List.forall_mem_cons, List.not_mem_nil, false_imp_iff, implies_true, and_true]
    exact .inr (.inr (.inr ⟨X, [], _, _, _, rfl, .x⟩))
  · simp only [List.forall_mem_cons, List.not_mem_nil, false_imp_iff, implies_true, and_true]
    exact ⟨.inl rfl, .inl rfl⟩

theorem measureRightFirst_tk : toTkCircuital measureRightFirst = .ok (tkOne []) := by
  have hc : isCircuital measureRightFirst = true := measureRightFirst_exportable.circuital
  have hn : numKets measureRightFirst.layers = 2 := measureRightFirst_exportable.numKets
  unfold toTkCircuital readoff
  rw [hc, hn]
  simp [readLoop, readStep_X, readStep_ket, readStep_measure, readStep_bra, measureRightFirst, dictSet, List.range_succ, addGates, addGate, opSig, phaseParams, tkOne]

/-- **C51 refuted (order of the bits).** The bits are numbered in the order of the measurements, so the axes of the result on a backend are in the order of the
measurements and not in the order of the wires. -/
theorem C51_refuted_order : ∃ F result, eval measureRightFirst true = .ok F ∧ F [0, 1] = 1 ∧ F [1, 0] = 0 ∧
    (∀ s, Bits 2 s → Counts.get [([1, 0], 1)] s = (tkOne []).prob s) ∧ backendEval measureRightFirst [([1, 0], 1)] = .ok (2, result) ∧
    result [0, 1] = 0 ∧ result [1, 0] = 1 := by
  obtain ⟨tk, F, e1, e2, e3, e4, e5, e6, e7, e8, e9, e10⟩ := C51_export measureRightFirst_exportable (k := 2) rfl
  cases measureRightFirst_tk.symm.trans e1
  have hopen : openQubits (tkOne []) = [0, 1] := by simp [openQubits, tkOne, List.range_succ]
  have hw : ∀ a b, ∀ j q i, (openQubits (tkOne []))[j]? = some q → (q, i) ∈ (tkOne []).measures → [a, b].getD i 0 = [b, a].getD j 0 := by
    rw [hopen]
    intro a b j q i hj hi
    match j with
    | 0 =>
      obtain rfl : 0 = q := by simpa using hj
      obtain rfl : i = 1 := by simpa [tkOne] using hi
      rfl
    | 1 =>
      obtain rfl : 1 = q := by simpa using hj
      obtain rfl : i = 0 := by simpa [tkOne] using hi
      rfl
    | j + 2 => simp at hj
  refine ⟨F, fun β => Counts.get [([1, 0], 1 * 1)] β, e2, ?_, ?_, ?_, ?_, ?_, ?_⟩
  · rw [e10 [1, 0] [0, 1] (by simp [Bits, tkOne]) (by simp [Bits]) (by simp [tkOne]) (hw 1 0), tkOne_prob _ (by simp [Bits])]
    simp [tkOne]
  · rw [e10 [0, 1] [1, 0] (by simp [Bits, tkOne]) (by simp [Bits]) (by simp [tkOne]) (hw 0 1), tkOne_prob _ (by simp [Bits])]
    simp [tkOne]
  · intro s hs
    rw [tkOne_prob _ hs]
    rcases bits_two hs with rfl | rfl | rfl | rfl <;> simp [Counts.get]
  · rw [backendEval, measureRightFirst_tk]
    simp [getCounts, postSelect, agrees, tkOne, resultOf, project, Counts.set, List.range_succ]
  · simp [Counts.get]
  · simp [Counts.get]

/-! ## States other than 0 -/

/-- A qubit in the state 1, measured. -/
def ketOne : Diagram QOb QBox := ⟨[], [.bit], [⟨[], ket true, []⟩, ⟨[], measure, []⟩]⟩

theorem cqBox_ket (b : Bool) : CQBox (ket b) := .inl (ket_pure b)

/-- **C51 refuted (`Ket(1)`).** `is_circuital` accepts every `Ket`, and the export starts every qubit in the state 0. -/
theorem C51_refuted_ket : isCircuital ketOne = true ∧ ∃ F tk, eval ketOne true = .ok F ∧ F [1] = 1 ∧ toTkCircuital ketOne = .ok tk ∧ tk.scalar = 1 ∧ tk.nBits = 1 ∧
    tk.prob [1] = 0 ∧ tk.prob [0] = 1 := by
  have hok : CQOK ketOne := by
    refine ⟨by decide, ?_⟩
    simp only [ketOne, List.forall_mem_cons, List.not_mem_nil, false_imp_iff, implies_true, and_true]
    exact ⟨⟨cqBox_ket _, by simp [Balanced]⟩, ⟨.inr (.inl rfl), by simp [Balanced]⟩⟩
  obtain ⟨F, hF⟩ := C74_total hok
  have hc : isCircuital ketOne = true := by
    simp [isCircuital, ketOne, numKets, isKet, endIdx, isEnd]
  refine ⟨hc, F, ⟨1, 1, [], [(0, 0)], [], 1⟩, hF, ?_, ?_, rfl, rfl, ?_, ?_⟩
  · have h1 := eval_cq hok hF [] (by simp [ketOne, Interp.idx]) [1] (by rw [cqI.mem_idx]; exact .cons (show 1 < 2 by decide) .nil)
    have h2 : flat ketOne.dom [] ++ flat ketOne.cod [1] = [1] := rfl
    rw [h2] at h1
    rw [h1]
    show cqI.act ⟨[], measure, []⟩ (cqI.act ⟨[], ket true, []⟩ (fun s => if s = [] then 1 else 0)) [1] = 1
    have h3 := act_measure [] [] (cqI.act ⟨[], ket true, []⟩ (fun s => if s = [] then 1 else 0)) (sl := []) (sr := []) (b := 1) rfl (by decide)
    rw [List.nil_append, List.append_nil] at h3
    rw [h3]
    have h4 := cqI.act_split ⟨[], ket true, []⟩ (fun s => if s = [] then 1 else 0) (yl := []) (c := [3]) [] rfl rfl
    refine h4.trans ?_
    show ∑ i ∈ cqI.idx [], (if ([] ++ (i ++ [])) = ([] : List Nat) then (1 : ℂ) else 0) * cqI.ten (ket true) i [3] = 1
    rw [Interp.idx, Finset.sum_singleton]
    show 1 * ((⟨[2], [0, 1]⟩ : NdArray ℂ).get [3 / 2] * star ((⟨[2], [0, 1]⟩ : NdArray ℂ).get [3 % 2])) = 1
    simp [NdArray.get, ravel]
  · unfold toTkCircuital readoff
    rw [hc]
    simp [ketOne, numKets, isKet, readLoop, readStep, dictSet, addGates, List.range_succ]
  · simp [TkCircuit.prob, TkCircuit.state, sum_allBits_one]
  · simp [TkCircuit.prob, TkCircuit.state, sum_allBits_one]

/-! ## A gate after a post-selection -/

/-- The first qubit is post-selected, then an `X` is applied to the second. -/
def gateAfterBra : Diagram QOb QBox :=
  ⟨[], [.bit], [⟨[], ket false, []⟩, ⟨[.qubit], ket false, []⟩, ⟨[], bra false, [.qubit]⟩, ⟨[], X, []⟩, ⟨[], measure, []⟩]⟩

/-- **C51 refuted (gates after post-selections).** `is_circuital` only excludes gates *between* two post-selections or discards; a gate after the last one is
exported on the qubit with the number of wires to its left (quantum.py:1702), here the post-selected qubit: its post-selection never succeeds. -/
theorem C51_refuted_gateAfterBra : isCircuital gateAfterBra = true ∧ ∃ tk, toTkCircuital gateAfterBra = .ok tk ∧ tk.measures = [(0, 0), (1, 1)] ∧ tk.postSelection = [(0, 0)] ∧
    tk.scalar = 1 ∧ tk.prob [0, 0] = 0 ∧ tk.prob [0, 1] = 0 ∧ ∃ F, eval gateAfterBra true = .ok F ∧ F [1] = 1 := by
  have hc : isCircuital gateAfterBra = true := by
    simp [isCircuital, gateAfterBra, numKets, isKet, endIdx, isEnd, X, List.range_succ, isMeasure]
  have hok : CQOK gateAfterBra := by
    refine ⟨by decide, ?_⟩
    simp only [gateAfterBra, List.forall_mem_cons, List.not_mem_nil, false_imp_iff, implies_true, and_true]
    refine ⟨⟨cqBox_ket _, by simp [Balanced]⟩, ⟨cqBox_ket _, by simp [Balanced]⟩, ⟨.inl ⟨trivial, rfl, by simp [dom, cod, sig]⟩, by simp [Balanced]⟩,
      ⟨.inl ⟨⟨_, rfl, rfl, fun _ => rfl, by decide⟩, rfl, by simp [dom, cod, sig, X]⟩, by simp [Balanced, X]⟩, ⟨.inr (.inl rfl), by simp [Balanced]⟩⟩
  have hst : ∀ y, Bits 2 y → (⟨2, 2, [⟨"X", [], false, [0]⟩], [(0, 0), (1, 1)], [(0, 0)], 1⟩ : TkCircuit).state y = if y = [1, 0] then 1 else 0 := by
    intro y hy
    rcases bits_two hy with rfl | rfl | rfl | rfl <;>
      simp [TkCircuit.state, tkOne, TkCmd.apply, applied, baseOp, ofMatrix, tkX]
  have hprob : ∀ b, (⟨2, 2, [⟨"X", [], false, [0]⟩], [(0, 0), (1, 1)], [(0, 0)], 1⟩ : TkCircuit).prob [0, b] = 0 := by
    intro b
    unfold TkCircuit.prob
    refine Finset.sum_eq_zero (fun y hy => ?_)
    rw [hst y (mem_allBits.1 hy)]
    split
    · rename_i h
      have h0 := h (0, 0) (by simp)
      rw [if_neg (by rintro rfl; simp at h0)]
      simp
    · rfl
  obtain ⟨F, hF⟩ := C74_total hok
  refine ⟨hc, _, ?_, rfl, rfl, rfl, hprob 0, hprob 1, F, hF, ?_⟩
  · unfold toTkCircuital readoff
    have hn : numKets gateAfterBra.layers = 2 := rfl
    rw [hc, hn]
    simp [gateAfterBra, readLoop, readStep_X, readStep_ket, readStep_measure, readStep_bra, dictSet, List.range_succ, addGates, addGate, opSig, phaseParams]
  · have h1 := eval_cq hok hF [] (by simp [gateAfterBra, Interp.idx]) [1] (by rw [cqI.mem_idx]; exact .cons (show 1 < 2 by decide) .nil)
    have h2 : flat gateAfterBra.dom [] ++ flat gateAfterBra.cod [1] = [1] := rfl
    rw [h2] at h1
    rw [h1]
    have hket : ∀ (L : List QOb) (v : List Nat → ℂ) (yl : List Nat) (x : Nat), yl.length = L.length → x < 4 → cqI.act ⟨L, ket false, []⟩ v (yl ++ [x]) = if x = 0 then v yl else 0 := by
      intro L v yl x hl hx
      have h4 := cqI.act_split ⟨L, ket false, []⟩ v (yl := yl) (c := [x]) [] hl rfl
      rw [List.append_nil] at h4
      refine h4.trans ?_
      show ∑ i ∈ cqI.idx [], v (yl ++ (i ++ [])) * ((⟨[2], [1, 0]⟩ : NdArray ℂ).get [x / 2] * star ((⟨[2], [1, 0]⟩ : NdArray ℂ).get [x % 2])) = _
      rw [Interp.idx, Finset.sum_singleton]
      rcases (by omega : x = 0 ∨ x = 1 ∨ x = 2 ∨ x = 3) with rfl | rfl | rfl | rfl <;> simp [NdArray.get, ravel]
    show cqI.act ⟨[], measure, []⟩ (cqI.act ⟨[], X, []⟩ (cqI.act ⟨[], bra false, [.qubit]⟩ (cqI.act ⟨[.qubit], ket false, []⟩ (cqI.act ⟨[], ket false, []⟩ (fun s => if s = [] then 1 else 0))))) [1] = 1
    set v := cqI.act ⟨[.qubit], ket false, []⟩ (cqI.act ⟨[], ket false, []⟩ (fun s => if s = [] then 1 else 0)) with hv
    have hbra : ∀ x, x < 4 → cqI.act ⟨[], bra false, [.qubit]⟩ v [x] = if x = 0 then 1 else 0 := by
      intro x hx
      have := act_bra [] [.qubit] v (sl := []) (sr := [x]) false rfl
      rw [List.nil_append] at this
      rw [this, hv]
      have h5 := hket [.qubit] (cqI.act ⟨[], ket false, []⟩ (fun s => if s = [] then 1 else 0)) [0] x rfl hx
      have h6 := hket [] (fun s => if s = [] then 1 else 0) [] 0 rfl (by decide)
      simp only [Bool.false_eq_true, if_false, mul_zero, List.nil_append, List.singleton_append] at h5 h6 ⊢
      rw [h5, h6]; simp
    have h3 := act_measure [] [] (cqI.act ⟨[], X, []⟩ (cqI.act ⟨[], bra false, [.qubit]⟩ v)) (sl := []) (sr := []) (b := 1) rfl (by decide)
    rw [List.nil_append, List.append_nil] at h3
    rw [h3]
    have h4 := cqI.act_split ⟨[], X, []⟩ (cqI.act ⟨[], bra false, [.qubit]⟩ v) (yl := []) (c := [3]) [] rfl rfl
    refine h4.trans ?_
    show ∑ i ∈ cqI.idx [QOb.qubit], cqI.act ⟨[], bra false, [.qubit]⟩ v ([] ++ (i ++ [])) * cqI.ten X i [3] = 1
    rw [sum_idx_qubit]
    simp only [List.nil_append, List.append_nil]
    rw [hbra 0 (by decide), hbra 1 (by decide), hbra 2 (by decide), hbra 3 (by decide)]
    show 1 * ((⟨[2, 2], [0, 1, 1, 0]⟩ : NdArray ℂ).get [0 / 2, 3 / 2] * star ((⟨[2, 2], [0, 1, 1, 0]⟩ : NdArray ℂ).get [0 % 2, 3 % 2])) + _ + _ + _ = _
    simp [NdArray.get, ravel]

/-! ## Gates that are not exported, or exported as other gates -/

/-- One gate on `n` qubits in the state 0, with a measurement of the first qubit. -/
def single (b : QBox) (n : Nat) : Diagram QOb QBox := ⟨[], .bit :: qubits n, ketLayers 0 (n + 1) ++ [⟨[], b, []⟩, ⟨[], measure, qubits n⟩]⟩

theorem single_circuital (b : QBox) (n : Nat) (hb : b.isGate = true) : numKets (single b n).layers = n + 1 ∧ isCircuital (single b n) = true := by
  have hk : b.isKet = false := by cases b <;> simp_all [isGate, isKet]
  have he : b.isEnd = false := by cases b <;> simp_all [isGate, isEnd]
  have hn : numKets (single b n).layers = n + 1 := by
    unfold numKets single
    rw [List.countP_append, List.countP_eq_length.2 (fun l hl => by rw [(mem_ketLayers l hl).1]; rfl), ketLayers_length]
    have hm : measure.isKet = false := rfl
    simp [List.countP_cons, hk, hm]
  refine ⟨hn, ?_⟩
  unfold isCircuital
  rw [hn, if_neg (by simp [single])]
  have ht : (single b n).layers.take (n + 1) = ketLayers 0 (n + 1) := by rw [single, List.take_left' (ketLayers_length 0 (n + 1))]
  have hd : (single b n).layers.drop (n + 1) = [⟨[], b, []⟩, ⟨[], measure, qubits n⟩] := by rw [single, List.drop_left' (ketLayers_length 0 (n + 1))]
  simp only [ht, hd]
  rw [if_neg, if_neg]
  · have hm : measure.isEnd = false := rfl
    simp [endIdx, List.range_succ, he, hm]
  · simp only [List.any_eq_true, not_exists, not_and, decide_eq_true_eq, not_not]
    exact fun l hl => (mem_ketLayers l hl).2
  · simp only [Bool.not_eq_true', Bool.not_eq_false, List.all_eq_true]
    exact fun l hl => by rw [(mem_ketLayers l hl).1]; rfl

theorem single_error (b : QBox) (n : Nat) (hb : b.isGate = true) {g : Gate} (hg : fromBox b 0 = .ok g) {e : PyErr} (he : ∀ c : TkCircuit, addGate c g = .error e) :
    isCircuital (single b n) = true ∧ toTkCircuital (single b n) = .error e := by
  obtain ⟨hn, hc⟩ := single_circuital b n hb
  refine ⟨hc, ?_⟩
  unfold toTkCircuital readoff
  rw [hc, hn]
  simp only [Bool.not_true, Bool.false_eq_true, if_false]
  rw [single, readLoop_kets, readLoop, readStep_gate (l := ⟨[], b, []⟩) hb hg]
  simp [readLoop, readStep, addGates, he]

theorem addGate_unknown (c : TkCircuit) {g : Gate} {t : String} (ht : g.gtype = t) (h1 : t ≠ "Scalar") (h2 : opSig t = none) : addGate c g = .error .notImplementedError := by
  unfold addGate
  rw [ht, if_neg h1, h2]

/-- **C51 refuted (phase 0).** `if gate.phase:` (tk.py:256) is false for the phase 0: the operation is created without its parameter, which raises. -/
theorem C51_refuted_phaseZero (ax : Axis) : isCircuital (single (rot ax 0) 0) = true ∧ toTkCircuital (single (rot ax 0) 0) = .error .runtimeError :=
  single_error (rot ax 0) 0 rfl rfl (fun c => by cases ax <;> simp [addGate, nameHead, opSig, phaseParams])

/-- **C51 refuted (`CRy`).** `from_box` sets the phase for `CRx` and `CRz` only (quantum.py:1602-1604): no controlled `Ry` is exported. -/
theorem C51_refuted_CRy (θ : ℝ) : isCircuital (single (controlled (rot .y θ) 1) 1) = true ∧ toTkCircuital (single (controlled (rot .y θ) 1) 1) = .error .runtimeError :=
  single_error (controlled (rot .y θ) 1) 1 rfl rfl (fun c => by simp [addGate, nameHead, opSig, phaseParams])

/-- **C51 refuted (unknown operations).** `CY` and `CCZ` are gates of lambeq, but not keys of `OPTYPE_MAP` (tk.py:43-58). -/
theorem C51_refuted_unknown : (isCircuital (single CY 1) = true ∧ toTkCircuital (single CY 1) = .error .notImplementedError) ∧
    isCircuital (single CCZ 2) = true ∧ toTkCircuital (single CCZ 2) = .error .notImplementedError :=
  ⟨single_error CY 1 rfl rfl (fun c => addGate_unknown c (t := "CY") rfl (by decide) (by decide)),
   single_error CCZ 2 rfl rfl (fun c => addGate_unknown c (t := "CCZ") rfl (by decide) (by decide))⟩

/-- **C51 refuted (conjugated gates).** The conjugate of `S` is exported as the operation `S`: `from_box` reads the name and not the array. -/
theorem C51_refuted_conjugate : ∃ b g a, S.rotate 1 = .ok b ∧ fromBox b 0 = .ok g ∧ g.gtype = "S" ∧ g.dagger = false ∧ b.array = .ok a ∧ amp a 1 1 = -Complex.I ∧
    ofMatrix (baseOp "S" []) 1 1 = Complex.I := by
  refine ⟨_, _, _, rfl, rfl, ?_, rfl, rfl, ?_, ?_⟩
  · rfl
  · show star Complex.I = -Complex.I
    simp
  · simp [ofMatrix, baseOp, tkS]

/-- A discarded qubit to the left of a post-selected one. -/
def discardThenBra : Diagram QOb QBox := ⟨[], [], [⟨[], ket false, []⟩, ⟨[.qubit], ket false, []⟩, ⟨[], discard, [.qubit]⟩, ⟨[], bra false, []⟩]⟩

/-- **C51 refuted (discards).** A discarded qubit to the left of a post-selected one: the number of the post-selected qubit is not a bit, `get_counts` raises on all counts. -/
theorem C51_refuted_discard : Exportable discardThenBra 2 [] discardThenBra.layers.tail.tail ∧
    ∀ s x counts, s.length = 1 → backendEval discardThenBra ((s, x) :: counts) = .error .indexError := by
  have hex : Exportable discardThenBra 2 [] discardThenBra.layers.tail.tail := by
    refine ⟨rfl, rfl, by decide, by simp, ?_⟩
    simp only [discardThenBra, List.tail_cons, List.forall_mem_cons, List.not_mem_nil, false_imp_iff, implies_true, and_true]
    exact ⟨.inr (.inl rfl), .inr (.inr ⟨_, rfl⟩)⟩
  refine ⟨hex, fun s x counts hs => ?_⟩
  have htk : toTkCircuital discardThenBra = .ok ⟨2, 1, [], [(1, 0)], [(1, 0)], 1⟩ := by
    unfold toTkCircuital readoff
    rw [hex.circuital, hex.numKets]
    simp [readLoop, readStep, discardThenBra, dictSet, List.range_succ, addGates]
  rw [backendEval, htk]
  have : agrees s [(1, 0)] = .error .indexError := by
    rw [agrees, List.getElem?_eq_none (by omega)]
  simp [getCounts, postSelect, this]

end
end QBox
end Lambeq
