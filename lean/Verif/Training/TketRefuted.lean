import Verif.Training.TketPredict

/-!
# Wrong predictions of t|ket⟩ models (C100)

Models training/tket_model.py:97-112 as in `Verif.Training.TketModel`, on concrete diagrams.
-/

namespace Lambeq
namespace TketModel
open QBox Diagram Predict
set_option linter.unusedSectionVars false
set_option linter.unusedSimpArgs false

noncomputable section

/-- The wire to the left is open and has the value 1, the wire to the right is post-selected to 0, which it is. -/
def openLeft : Diagram QOb QBox := ⟨[], [.qubit], [⟨[], ket false, []⟩, ⟨[.qubit], ket false, []⟩, ⟨[], X, [.qubit]⟩, ⟨[.qubit], bra false, []⟩]⟩

/-- Two words: the first is prepared and post-selected to 0, which it is; the second is prepared after a gate on the first, is open and has the value 1. -/
def twoWords : Diagram QOb QBox :=
  ⟨[], [.qubit], [⟨[], ket false, []⟩, ⟨[], Z, []⟩, ⟨[.qubit], ket false, []⟩, ⟨[.qubit], X, []⟩, ⟨[], bra false, [.qubit]⟩]⟩

def openLeftMeasured : Diagram QOb QBox :=
  ⟨[], [.bit], [⟨[], ket false, []⟩, ⟨[.qubit], ket false, []⟩, ⟨[], X, [.qubit]⟩, ⟨[.qubit], bra false, []⟩, ⟨[], QBox.measure, []⟩]⟩

def twoWordsMeasured : Diagram QOb QBox :=
  ⟨[], [.bit], [⟨[], ket false, []⟩, ⟨[], Z, []⟩, ⟨[.qubit], ket false, []⟩, ⟨[.qubit], X, []⟩, ⟨[], bra false, [.qubit]⟩, ⟨[], QBox.measure, []⟩]⟩

theorem openLeft_measure : measureAll openLeft = .ok openLeftMeasured := (measureAll_ok (k := 1) rfl).trans rfl
theorem twoWords_measure : measureAll twoWords = .ok twoWordsMeasured := (measureAll_ok (k := 1) rfl).trans rfl

/-- What `to_circuital` makes of the measured diagram: the measurement comes before the post-selection. -/
def twoWordsCompiled : Diagram QOb QBox :=
  ⟨[], [.bit], [⟨[], ket false, []⟩, ⟨[.qubit], ket false, []⟩, ⟨[], Z, [.qubit]⟩, ⟨[.qubit], X, []⟩, ⟨[.qubit], QBox.measure, []⟩, ⟨[], bra false, [.bit]⟩]⟩

theorem twoWords_compiled : toCircuital twoWordsMeasured = .ok twoWordsCompiled := by
  obtain ⟨e, he1, he2⟩ : ∃ e, initAndDiscard twoWordsMeasured = .ok e ∧ e.layers = twoWordsMeasured.layers := ⟨_, rfl, rfl⟩
  simp only [toCircuital, he1, he2]
  simp only [twoWordsMeasured]
  have h : circLoop [] [] [] (List.flatMap ketbraLayer [⟨[], ket false, []⟩, ⟨[], Z, []⟩, ⟨[QOb.qubit], ket false, []⟩, ⟨[.qubit], X, []⟩, ⟨[], bra false, [.qubit]⟩, ⟨[], QBox.measure, []⟩]) =
      ([⟨[], ket false, []⟩, ⟨[.qubit], ket false, []⟩], [⟨[], Z, [.qubit]⟩, ⟨[.qubit], X, []⟩, ⟨[.qubit], QBox.measure, []⟩], [⟨[], bra false, [.bit]⟩]) := by
    refine (circLoop_ket rfl).trans ((circLoop_gate rfl rfl).trans ((circLoop_ket rfl).trans ((circLoop_gate rfl rfl).trans ((circLoop_end rfl rfl).trans ((circLoop_gate rfl rfl).trans ?_)))))
    refine (circLoop_nil _ _ _).trans ?_
    rfl
  rw [h]
  rfl

theorem openLeft_exportable : Exportable openLeftMeasured 2 [⟨[], X, [.qubit]⟩] [⟨[.qubit], bra false, []⟩, ⟨[], QBox.measure, []⟩] := by
  refine ⟨rfl, rfl, by decide, ?_, ?_⟩
  · simp only [List.forall_mem_cons, List.not_mem_nil, false_imp_iff, implies_true, and_true]
    exact .inr (.inr (.inr ⟨X, [], _, _, _, rfl, .x⟩))
  · simp only [List.forall_mem_cons, List.not_mem_nil, false_imp_iff, implies_true, and_true]
    exact ⟨.inr (.inr ⟨_, rfl⟩), .inl rfl⟩

theorem twoWords_exportable : Exportable twoWordsCompiled 2 [⟨[], Z, [.qubit]⟩, ⟨[.qubit], X, []⟩] [⟨[.qubit], QBox.measure, []⟩, ⟨[], bra false, [.bit]⟩] := by
  refine ⟨rfl, rfl, by decide, ?_, ?_⟩
  · simp only [List.forall_mem_cons, List.not_mem_nil, false_imp_iff, implies_true, and_true]
    exact ⟨.inr (.inr (.inr ⟨Z, [], _, _, _, rfl, .z⟩)), .inr (.inr (.inr ⟨X, [], _, _, _, rfl, .x⟩))⟩
  · simp only [List.forall_mem_cons, List.not_mem_nil, false_imp_iff, implies_true, and_true]
    exact ⟨.inl rfl, .inr (.inr ⟨_, rfl⟩)⟩

def openLeftTk : TkCircuit := ⟨2, 2, [⟨"X", [], false, [0]⟩], [(1, 0), (0, 1)], [(1, 0)], 1⟩
def twoWordsTk : TkCircuit := ⟨2, 2, [⟨"Z", [], false, [0]⟩, ⟨"X", [], false, [1]⟩], [(1, 0), (0, 1)], [(0, 0)], 1⟩

theorem readStep_Z (L R : List QOb) (st : Info) : readStep st ⟨L, Z, R⟩ = .ok { st with gates := st.gates ++ [⟨"Z", [L.length], .none, false, none, none⟩] } := rfl

theorem openLeft_tk : toTk openLeftMeasured = .ok openLeftTk := by
  have hc : isCircuital openLeftMeasured = true := openLeft_exportable.circuital
  have hn : numKets openLeftMeasured.layers = 2 := openLeft_exportable.numKets
  unfold toTk toTkCircuital readoff
  rw [hc, hn]
  simp [readLoop, readStep_X, readStep_ket, readStep_measure, readStep_bra, openLeftMeasured, dictSet, List.range_succ, addGates, addGate, opSig, phaseParams, openLeftTk]

theorem twoWords_not_circuital : isCircuital twoWordsMeasured = false := by decide

theorem twoWords_tk : toTk twoWordsMeasured = .ok twoWordsTk := by
  have hc : isCircuital twoWordsCompiled = true := twoWords_exportable.circuital
  have hn : numKets twoWordsCompiled.layers = 2 := twoWords_exportable.numKets
  rw [toTk, twoWords_not_circuital]
  simp only [Bool.false_eq_true, if_false, twoWords_compiled]
  unfold toTkCircuital readoff
  rw [hc, hn]
  simp [readLoop, readStep_X, readStep_Z, readStep_ket, readStep_measure, readStep_bra, twoWordsCompiled, dictSet, List.range_succ, addGates, addGate, opSig, phaseParams, twoWordsTk]

theorem openLeft_prob {s : List Nat} (hs : Bits 2 s) : openLeftTk.prob s = if s = [0, 1] then 1 else 0 := by
  have hst : ∀ y, Bits 2 y → openLeftTk.state y = if y = [1, 0] then 1 else 0 := by
    intro y hy
    rcases bits_two hy with rfl | rfl | rfl | rfl <;> simp [TkCircuit.state, openLeftTk, TkCmd.apply, applied, baseOp, ofMatrix, tkX]
  unfold TkCircuit.prob
  rw [Finset.sum_eq_single [1, 0]]
  · rw [hst [1, 0] (by simp [Bits])]
    rcases bits_two hs with rfl | rfl | rfl | rfl <;> simp [openLeftTk]
  · intro y hy hne
    rw [hst y (mem_allBits.1 hy), if_neg hne]; simp
  · intro hn; exact absurd (mem_allBits.2 (by simp [Bits] : Bits 2 [1, 0])) hn

theorem twoWords_prob {s : List Nat} (hs : Bits 2 s) : twoWordsTk.prob s = if s = [1, 0] then 1 else 0 := by
  have hst : ∀ y, Bits 2 y → twoWordsTk.state y = if y = [0, 1] then 1 else 0 := by
    intro y hy
    rcases bits_two hy with rfl | rfl | rfl | rfl <;> simp [TkCircuit.state, twoWordsTk, TkCmd.apply, applied, baseOp, ofMatrix, tkX, tkZ]
  unfold TkCircuit.prob
  rw [Finset.sum_eq_single [0, 1]]
  · rw [hst [0, 1] (by simp [Bits])]
    rcases bits_two hs with rfl | rfl | rfl | rfl <;> simp [twoWordsTk]
  · intro y hy hne
    rw [hst y (mem_allBits.1 hy), if_neg hne]; simp
  · intro hn; exact absurd (mem_allBits.2 (by simp [Bits] : Bits 2 [0, 1])) hn

theorem openLeft_exact : Exact openLeftTk [([0, 1], 1)] := by
  refine ⟨by simp [openLeftTk], by simp, fun s hs => ?_⟩
  rw [openLeft_prob hs]
  rcases bits_two hs with rfl | rfl | rfl | rfl <;> simp [Counts.get]

theorem twoWords_exact : Exact twoWordsTk [([1, 0], 1)] := by
  refine ⟨by simp [twoWordsTk], by simp, fun s hs => ?_⟩
  rw [twoWords_prob hs]
  rcases bits_two hs with rfl | rfl | rfl | rfl <;> simp [Counts.get]

theorem sum_two (f : List Nat → ℝ) : ∑ y ∈ allBits 1, f y = f [0] + f [1] := by
  have : allBits 1 = {[0], [1]} := by
    ext y
    rw [mem_allBits]
    constructor
    · intro h
      obtain ⟨a, y, rfl, ha, h⟩ := Bits.uncons (n := 0) h
      obtain rfl := h.eq_nil
      rcases (by omega : a = 0 ∨ a = 1) with rfl | rfl <;> simp
    · intro h
      simp only [Finset.mem_insert, Finset.mem_singleton] at h
      rcases h with rfl | rfl <;> simp [Bits]
  rw [this, Finset.sum_pair (by simp)]

/-- The distribution of a value that is 1. -/
theorem predict_one {h : Diagram QOb QBox} {F : List Nat → ℂ} (hm : mixedDiagram h = true) (hd : h.dom = []) (hc : h.cod = [.bit]) (hF : eval h true = .ok F) (h0 : F [0] = 0) (h1 : F [1] = 1) :
    ∃ q, predict h = .ok q ∧ q [0] = 0 ∧ q [1] = 1 := by
  have hax : outAxes h = 1 := by simp [outAxes, hm, hd, hc, axes]
  refine ⟨_, by simp only [predict, C74_flag h false hm, hF]; rfl, ?_, ?_⟩
  · simp [hm, hax, normaliseVector, h0]
  · have : eps ≤ 1 := by unfold eps; norm_num
    simp [hm, hax, normaliseVector, h0, h1, sum_two, this]

/-- A model with an exact backend predicts nothing at all. -/
theorem forward_dropped (cfg : Config) {d h : Diagram QOb QBox} {tk : TkCircuit} {c : Counts} (hm : measureAll d = .ok h) (htk : toTk h = .ok tk) (hb : tk.nBits - tk.postSelection.length = 1)
    (hdrop : getCounts tk c = .ok []) : ∃ p, forward (fun _ _ => c) cfg 1 1 [d] = .ok (1, [p]) ∧ p [0] = 0 ∧ p [1] = 0 := by
  have hone : one (fun _ _ => c) cfg d = .ok (1, fun β => Counts.get [] β) := by
    simp [one, hm, htk, tkResult, hdrop, resultOf, hb]
  refine ⟨_, (forward_one _ cfg one_ne_zero one_ne_zero _ _ _).2 ⟨_, hone, rfl, rfl⟩, ?_, ?_⟩ <;> simp [row, normaliseVector, Counts.get]

/-- **C100 (refuted, open wires to the left of post-selected ones).** The output is 1 with certainty and the post-selection succeeds with certainty, but the prediction of a model with an exact backend is
0 for both outcomes: `get_counts` takes the number of the post-selected qubit for the number of a bit. -/
theorem C100_left_refuted (cfg : Config) : ∃ h q p tk, measureAll openLeft = .ok h ∧ predict h = .ok q ∧ q [0] = 0 ∧ q [1] = 1 ∧ toTk h = .ok tk ∧ Exact tk [([0, 1], 1)] ∧
    forward (fun _ _ => [([0, 1], 1)]) cfg 1 1 [openLeft] = .ok (1, [p]) ∧ p [0] = 0 ∧ p [1] = 0 := by
  obtain ⟨tk, F, e1, e2, e3, e4, e5, e6, e7, e8, e9, e10⟩ := C51_export openLeft_exportable (k := 1) rfl
  have ht : toTkCircuital openLeftMeasured = .ok openLeftTk := by
    have := openLeft_tk
    rwa [toTk, if_pos openLeft_exportable.circuital] at this
  cases ht.symm.trans e1
  have hval : ∀ b, b < 2 → F [b] = (if b = 1 then 1 else 0 : ℝ) := by
    intro b hb
    have hb1 : b ≤ 1 := by omega
    rw [e10 [0, b] [b] (by simp [Bits, openLeftTk, hb, hb1]) (by simp [Bits, hb, hb1]) (by simp [openLeftTk]) ?_, openLeft_prob (by simp [Bits, hb, hb1])]
    · simp [openLeftTk]
    · have : openQubits openLeftTk = [0] := by simp [openQubits, openLeftTk, List.range_succ]
      rw [this]
      intro j q i hj hi
      cases j with
      | zero =>
        obtain rfl : 0 = q := by simpa using hj
        obtain rfl : i = 1 := by simpa [openLeftTk] using hi
        rfl
      | succ j => simp at hj
  obtain ⟨q, q1, q2, q3⟩ := predict_one (mixed_measured (d := openLeft) (k := 1) rfl (by simp) openLeft_measure) rfl rfl e2 (by rw [hval 0 (by simp)]; simp) (by rw [hval 1 (by simp)]; simp)
  obtain ⟨p, p1, p2, p3⟩ := forward_dropped (c := [([0, 1], 1)]) cfg openLeft_measure openLeft_tk rfl (by simp [getCounts, postSelect, agrees, openLeftTk])
  exact ⟨_, q, p, _, openLeft_measure, q1, q2, q3, openLeft_tk, openLeft_exact, p1, p2, p3⟩

/-- **C100 (refuted, sentences).** The same for a diagram in which a wire is prepared after a gate on another, as in the diagram of every sentence with two words: `to_circuital` moves the measurements of
the open wires before the post-selections, so that the numbers of bits and qubits differ unless the open wires are the leftmost ones. -/
theorem C100_sentence_refuted (cfg : Config) : ∃ h q p tk, measureAll twoWords = .ok h ∧ predict h = .ok q ∧ q [0] = 0 ∧ q [1] = 1 ∧ toTk h = .ok tk ∧ Exact tk [([1, 0], 1)] ∧
    forward (fun _ _ => [([1, 0], 1)]) cfg 1 1 [twoWords] = .ok (1, [p]) ∧ p [0] = 0 ∧ p [1] = 0 := by
  have hbox : ∀ l ∈ twoWords.layers, Prep l.box ∨ TkGate l.box := by
    simp only [twoWords, List.forall_mem_cons, List.not_mem_nil, false_imp_iff, implies_true, and_true]
    exact ⟨.inl (.inl ⟨_, rfl⟩), .inr (.inr (.inr (.inr ⟨Z, [], _, _, _, rfl, .z, .inl (by simp)⟩))), .inl (.inl ⟨_, rfl⟩), .inr (.inr (.inr (.inr ⟨X, [], _, _, _, rfl, .x, .inl (by simp)⟩))), .inl (.inr (.inl ⟨_, rfl⟩))⟩
  obtain ⟨tk, F, e1, e2, e3, e4, e5, e6, e7, e8, e10⟩ := C84_to_tk (d := twoWordsMeasured) (by decide) (by simp [twoWordsMeasured]) (as := twoWords.layers) (bs := [⟨[], QBox.measure, []⟩]) rfl hbox (by simp)
    twoWords_not_circuital
  cases twoWords_tk.symm.trans e1
  have hval : ∀ b, b < 2 → F [b] = (if b = 1 then 1 else 0 : ℝ) := by
    intro b hb
    have hb1 : b ≤ 1 := by omega
    have hcount : twoWordsMeasured.cod.count .bit = 1 ∧ twoWordsMeasured.cod.count .qubit = 0 ∧ twoWordsMeasured.dom = [] := ⟨rfl, rfl, rfl⟩
    have h10 := e10 [b, 0] [b] (by simp [Bits, twoWordsTk, hb, hb1]) (by rw [hcount.1]; simp [Bits, hb, hb1]) (by simp [twoWordsTk]) ?_
    · rw [hcount.2.1, hcount.2.2, sum_allBits_zero, twoWords_prob (by simp [Bits, hb, hb1])] at h10
      simpa [twoWordsTk] using h10
    · have : openQubits twoWordsTk = [1] := by simp [openQubits, twoWordsTk, List.range_succ]
      rw [this]
      intro j q i hj hi
      cases j with
      | zero =>
        obtain rfl : 1 = q := by simpa using hj
        obtain rfl : i = 0 := by simpa [twoWordsTk] using hi
        rfl
      | succ j => simp at hj
  obtain ⟨q, q1, q2, q3⟩ := predict_one (mixed_measured (d := twoWords) (k := 1) rfl (by simp) twoWords_measure) rfl rfl e2 (by rw [hval 0 (by simp)]; simp) (by rw [hval 1 (by simp)]; simp)
  obtain ⟨p, p1, p2, p3⟩ := forward_dropped (c := [([1, 0], 1)]) cfg twoWords_measure twoWords_tk rfl (by simp [getCounts, postSelect, agrees, twoWordsTk])
  exact ⟨_, q, p, _, twoWords_measure, q1, q2, q3, twoWords_tk, twoWords_exact, p1, p2, p3⟩

/-! ## The hypotheses are met -/

/-- An exact backend. -/
def exactRun (_ : Nat) (tk : TkCircuit) : Counts := (allBits tk.nBits).toList.map (fun s => (s, tk.prob s))

theorem exactRun_exact (n : Nat) (tk : TkCircuit) : Exact tk (exactRun n tk) := by
  have hfst : (exactRun n tk).map Prod.fst = (allBits tk.nBits).toList := by simp [exactRun, Function.comp_def]
  have hnd : ((exactRun n tk).map Prod.fst).Nodup := by rw [hfst]; exact Finset.nodup_toList _
  refine ⟨fun e he => ?_, hnd, fun s hs => ?_⟩
  · simp only [exactRun, List.mem_map, Finset.mem_toList] at he
    obtain ⟨s, h1, rfl⟩ := he
    exact (mem_allBits.1 h1).1
  · have key : ∀ l : List (List Nat), s ∈ l → Counts.get (l.map (fun s => (s, tk.prob s))) s = tk.prob s := by
      intro l
      induction l with
      | nil => simp
      | cons t l ih =>
        intro h
        rw [List.map_cons]
        by_cases ht : t = s
        · subst ht; exact Counts.get_cons_self _ _ _
        · rw [Counts.get_cons_ne _ _ ht]
          exact ih ((List.mem_cons.1 h).resolve_left (fun e => ht e.symm))
    exact key _ (Finset.mem_toList.2 (mem_allBits.2 hs))

example : ∃ p, forward exactRun [("backend", 0), ("compilation", 0), ("shots", 8192)] 1 1
    [⟨[], [.qubit], [⟨[], ket false, []⟩, ⟨[.qubit], ket false, []⟩, ⟨[], X, [.qubit]⟩, ⟨[.qubit], discard, []⟩]⟩] = .ok (1, [p]) := by
  obtain ⟨h, p, q, -, -, h3, -⟩ := C100_discard (run := exactRun) (cfg := [("backend", 0), ("compilation", 0), ("shots", 8192)]) one_ne_zero one_ne_zero
    (d := ⟨[], [.qubit], [⟨[], ket false, []⟩, ⟨[.qubit], ket false, []⟩, ⟨[], X, [.qubit]⟩, ⟨[.qubit], discard, []⟩]⟩) (n := 2) (k := 1) (gs := [⟨[], X, [.qubit]⟩]) (tl := [⟨[.qubit], discard, []⟩])
    rfl rfl (by decide) (by simp only [List.forall_mem_cons, List.not_mem_nil, false_imp_iff, implies_true, and_true]; exact .inr (.inr (.inr ⟨X, [], _, _, _, rfl, .x⟩))) (by simp) rfl one_ne_zero
    (exactRun_exact _)
  exact ⟨p, h3⟩

/-- The wire to the right is open, the one to the left is post-selected: the numbers agree. -/
def openRight : Diagram QOb QBox := ⟨[], [.qubit], [⟨[], ket false, []⟩, ⟨[.qubit], ket false, []⟩, ⟨[.qubit], X, []⟩, ⟨[], bra false, [.qubit]⟩]⟩

theorem openRight_tk : ∃ h, measureAll openRight = .ok h ∧ toTk h = .ok ⟨2, 2, [⟨"X", [], false, [1]⟩], [(0, 0), (1, 1)], [(0, 0)], 1⟩ := by
  refine ⟨⟨[], [.bit], [⟨[], ket false, []⟩, ⟨[.qubit], ket false, []⟩, ⟨[.qubit], X, []⟩, ⟨[], bra false, [.qubit]⟩, ⟨[], QBox.measure, []⟩]⟩, (measureAll_ok (k := 1) rfl).trans rfl, ?_⟩
  have hexp : Exportable (⟨[], [.bit], [⟨[], ket false, []⟩, ⟨[.qubit], ket false, []⟩, ⟨[.qubit], X, []⟩, ⟨[], bra false, [.qubit]⟩, ⟨[], QBox.measure, []⟩]⟩ : Diagram QOb QBox) 2
      [⟨[.qubit], X, []⟩] [⟨[], bra false, [.qubit]⟩, ⟨[], QBox.measure, []⟩] := by
    refine ⟨rfl, rfl, by decide, ?_, ?_⟩
    · simp only [List.forall_mem_cons, List.not_mem_nil, false_imp_iff, implies_true, and_true]
      exact .inr (.inr (.inr ⟨X, [], _, _, _, rfl, .x⟩))
    · simp only [List.forall_mem_cons, List.not_mem_nil, false_imp_iff, implies_true, and_true]
      exact ⟨.inr (.inr ⟨_, rfl⟩), .inl rfl⟩
  have hc := hexp.circuital
  have hn := hexp.numKets
  unfold toTk toTkCircuital readoff
  rw [hc, hn]
  simp [readLoop, readStep_X, readStep_ket, readStep_measure, readStep_bra, dictSet, List.range_succ, addGates, addGate, opSig, phaseParams]

example : ∃ h p q, measureAll openRight = .ok h ∧ predict h = .ok q ∧ forward exactRun [] 1 1 [openRight] = .ok (1, [p]) ∧ ∀ y, Bits 1 y → p y = q y := by
  obtain ⟨h, h1, h2⟩ := openRight_tk
  obtain ⟨p, q, h3, h4, h5, -⟩ := C100_circuital_partial (run := exactRun) (cfg := []) one_ne_zero one_ne_zero (d := openRight) (n := 2) (k := 1) (gs := [⟨[.qubit], X, []⟩])
    (tl := [⟨[], bra false, [.qubit]⟩]) rfl rfl (by decide)
    (by simp only [List.forall_mem_cons, List.not_mem_nil, false_imp_iff, implies_true, and_true]; exact .inr (.inr (.inr ⟨X, [], _, _, _, rfl, .x⟩))) (by simp) rfl one_ne_zero h1 h2 (by simp) (exactRun_exact _ _)
  exact ⟨h, p, q, h1, h3, h4, h5⟩

/-- A wire that is open, and to its right a wire that is prepared later and post-selected. -/
def wordsLeft : Diagram QOb QBox :=
  ⟨[], [.qubit], [⟨[], ket false, []⟩, ⟨[], X, []⟩, ⟨[.qubit], ket false, []⟩, ⟨[.qubit], bra false, []⟩]⟩

def wordsLeftMeasured : Diagram QOb QBox :=
  ⟨[], [.bit], [⟨[], ket false, []⟩, ⟨[], X, []⟩, ⟨[.qubit], ket false, []⟩, ⟨[.qubit], bra false, []⟩, ⟨[], QBox.measure, []⟩]⟩

def wordsLeftCompiled : Diagram QOb QBox :=
  ⟨[], [.bit], [⟨[], ket false, []⟩, ⟨[.qubit], ket false, []⟩, ⟨[], X, [.qubit]⟩, ⟨[], QBox.measure, [.qubit]⟩, ⟨[.bit], bra false, []⟩]⟩

theorem wordsLeft_tk : toTk wordsLeftMeasured = .ok ⟨2, 2, [⟨"X", [], false, [0]⟩], [(0, 0), (1, 1)], [(1, 0)], 1⟩ := by
  have hcomp : toCircuital wordsLeftMeasured = .ok wordsLeftCompiled := by
    obtain ⟨e, he1, he2⟩ : ∃ e, initAndDiscard wordsLeftMeasured = .ok e ∧ e.layers = wordsLeftMeasured.layers := ⟨_, rfl, rfl⟩
    simp only [toCircuital, he1, he2]
    simp only [wordsLeftMeasured]
    have h : circLoop [] [] [] (List.flatMap ketbraLayer [⟨[], ket false, []⟩, ⟨[], X, []⟩, ⟨[QOb.qubit], ket false, []⟩, ⟨[.qubit], bra false, []⟩, ⟨[], QBox.measure, []⟩]) =
        ([⟨[], ket false, []⟩, ⟨[.qubit], ket false, []⟩], [⟨[], X, [.qubit]⟩, ⟨[], QBox.measure, [.qubit]⟩], [⟨[.bit], bra false, []⟩]) := by
      refine (circLoop_ket rfl).trans ((circLoop_gate rfl rfl).trans ((circLoop_ket rfl).trans ((circLoop_end rfl rfl).trans ((circLoop_gate rfl rfl).trans ?_))))
      refine (circLoop_nil _ _ _).trans ?_
      rfl
    rw [h]
    rfl
  have hexp : Exportable wordsLeftCompiled 2 [⟨[], X, [.qubit]⟩] [⟨[], QBox.measure, [.qubit]⟩, ⟨[.bit], bra false, []⟩] := by
    refine ⟨rfl, rfl, by decide, ?_, ?_⟩
    · simp only [List.forall_mem_cons, List.not_mem_nil, false_imp_iff, implies_true, and_true]
      exact .inr (.inr (.inr ⟨X, [], _, _, _, rfl, .x⟩))
    · simp only [List.forall_mem_cons, List.not_mem_nil, false_imp_iff, implies_true, and_true]
      exact ⟨.inl rfl, .inr (.inr ⟨_, rfl⟩)⟩
  have hc := hexp.circuital
  have hn := hexp.numKets
  rw [toTk, (by decide : isCircuital wordsLeftMeasured = false)]
  simp only [Bool.false_eq_true, if_false, hcomp]
  unfold toTkCircuital readoff
  rw [hc, hn]
  simp [readLoop, readStep_X, readStep_ket, readStep_measure, readStep_bra, wordsLeftCompiled, dictSet, List.range_succ, addGates, addGate, opSig, phaseParams]

example : ∃ p q, predict wordsLeftMeasured = .ok q ∧ forward exactRun [] 1 1 [wordsLeft] = .ok (1, [p]) ∧ ∀ y, Bits 1 y → p y = q y := by
  obtain ⟨p, q, h3, h4, h5, -⟩ := C100_compiled_partial (run := exactRun) (cfg := []) one_ne_zero one_ne_zero (d := wordsLeft) (k := 1) rfl (by decide)
    (by
      simp only [wordsLeft, List.forall_mem_cons, List.not_mem_nil, false_imp_iff, implies_true, and_true]
      exact ⟨.inl (.inl ⟨_, rfl⟩), .inr (.inr (.inr (.inr ⟨X, [], _, _, _, rfl, .x, .inl (by simp)⟩))), .inl (.inl ⟨_, rfl⟩), .inl (.inr (.inl ⟨_, rfl⟩))⟩)
    rfl one_ne_zero ((measureAll_ok (k := 1) rfl).trans rfl : measureAll wordsLeft = .ok wordsLeftMeasured) (by decide) wordsLeft_tk (by simp) (by simp) (exactRun_exact _ _)
  exact ⟨p, q, h3, h4, h5⟩

end
end TketModel
end Lambeq
