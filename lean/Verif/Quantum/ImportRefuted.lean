import Verif.Quantum.ImportTheorems
import Verif.Quantum.ExportRefuted

/-!
# Import of `t|ket⟩` circuits: the round trip, examples, and circuits for which the import is wrong (C99)
-/

namespace Lambeq
open Diagram
set_option linter.unusedSectionVars false
set_option linter.unusedSimpArgs false

namespace QBox
noncomputable section

/-! ## Export and import -/

/-- The name of the operation: `t|ket⟩` calls the adjoints of `S` and `T` `Sdg` and `Tdg`, those of the other operations keep the name of the operation in the model. -/
def TkCmd.toItem (c : TkCmd) : TkGateItem := ⟨if c.dagger then c.type ++ "dg" else c.type, c.params, c.qubits⟩

/-- The exported circuit as the argument of `from_tk`: operations come before measurements. -/
def TkCircuit.toIn (tk : TkCircuit) : TkIn :=
  ⟨tk.nQubits, tk.nBits, (tk.cmds.map TkCmd.toItem).map TkGateItem.item ++ tk.measures.map (fun m => TkItem.measure m.1 m.2), tk.postSelection, tk.scalar⟩

/-- A command of an exported circuit. -/
structure TkCmd.OK (n : Nat) (c : TkCmd) : Prop where
  sig : opSig c.type = some (c.params.length, c.qubits.length)
  nodup : c.qubits.Nodup
  lt : ∀ q ∈ c.qubits, q < n
  dagger : c.dagger = true → c.type = "S" ∨ c.type = "T"

theorem fromBox_dagger {b : QBox} (h : ExportGate b) {off : Nat} {g : Gate} (hg : fromBox b off = .ok g) : g.dagger = true → g.gtype = "S" ∨ g.gtype = "T" := by
  rcases h with rfl | ⟨c, rfl⟩ | ⟨c, rfl⟩ | ⟨b, ds, t, ps, dg, rfl, hgate⟩
  · cases hg; intro h; cases h
  · cases hg; intro h; cases h
  · cases hg; intro h; cases h
  · obtain ⟨-, -, -, -, -, -, hf⟩ := hgate.spec
    obtain ⟨gate, f1, f2, -, -, f5⟩ := hf off
    cases hg.symm.trans f1
    rw [f2, f5]
    intro h
    cases hgate <;> first | (cases h; done) | simp

theorem readStep_dagger {st st' : Info} {l : Layer QOb QBox} (h : readStep st l = .ok st') (hl : l.box.isGate = true → ExportGate l.box)
    (hst : ∀ g ∈ st.gates, g.dagger = true → g.gtype = "S" ∨ g.gtype = "T") : ∀ g ∈ st'.gates, g.dagger = true → g.gtype = "S" ∨ g.gtype = "T" := by
  by_cases hb : l.box.isGate = true
  · cases hf : fromBox l.box l.left.length with
    | error e =>
      obtain ⟨L, b, R⟩ := l
      simp only at hb hf hl
      unfold readStep at h
      cases b <;> first | (exact absurd hb Bool.false_ne_true) | (simp only [hf] at h; cases h)
    | ok g =>
      rw [readStep_gate hb hf] at h
      cases h
      intro g' hg'
      rcases List.mem_append.1 hg' with hg' | hg'
      · exact hst g' hg'
      · rw [List.mem_singleton.1 hg']; exact fromBox_dagger (hl hb) hf
  · obtain ⟨L, b, R⟩ := l
    simp only at hb
    unfold readStep at h
    cases b <;> simp [QBox.isGate] at hb
    all_goals simp only at h
    all_goals (try split at h)
    all_goals first | (cases h; done) | (cases h; exact hst)

theorem readLoop_dagger {ls : List (Layer QOb QBox)} {st st' : Info} (h : readLoop st ls = .ok st') (hl : ∀ l ∈ ls, l.box.isGate = true → ExportGate l.box)
    (hst : ∀ g ∈ st.gates, g.dagger = true → g.gtype = "S" ∨ g.gtype = "T") : ∀ g ∈ st'.gates, g.dagger = true → g.gtype = "S" ∨ g.gtype = "T" := by
  induction ls generalizing st with
  | nil => cases h; exact hst
  | cons l ls ih =>
    rw [readLoop] at h
    split at h
    · cases h
    · rename_i st1 h1
      exact ih h (fun l hl' => hl l (List.mem_cons_of_mem _ hl')) (readStep_dagger h1 (hl l (by simp)) hst)

theorem addGates_ok {gs : List Gate} {c c' : TkCircuit} (h : addGates c gs = .ok c') (hg : ∀ g ∈ gs, g.dagger = true → g.gtype = "S" ∨ g.gtype = "T") (hs : 0 ≤ c.scalar) (hc : ∀ cmd ∈ c.cmds, cmd.OK c.nQubits) :
    0 ≤ c'.scalar ∧ c'.nQubits = c.nQubits ∧ ∀ cmd ∈ c'.cmds, cmd.OK c'.nQubits := by
  induction gs generalizing c with
  | nil => cases h; exact ⟨hs, rfl, hc⟩
  | cons g gs ih =>
    rw [addGates] at h
    split at h
    · cases h
    rename_i c1 h1
    have key : 0 ≤ c1.scalar ∧ c1.nQubits = c.nQubits ∧ ∀ cmd ∈ c1.cmds, cmd.OK c1.nQubits := by
      unfold addGate at h1
      split at h1
      · split at h1
        · cases h1
        · cases h1; exact ⟨mul_nonneg hs (by positivity), rfl, hc⟩
        · cases h1; exact ⟨mul_nonneg hs (by positivity), rfl, hc⟩
      · split at h1
        · cases h1
        rename_i np nq hsig
        simp only at h1
        split at h1
        · cases h1
        rename_i hnp
        split at h1
        · cases h1
        rename_i hnq
        cases h1
        refine ⟨hs, rfl, fun cmd hcmd => ?_⟩
        rcases List.mem_append.1 hcmd with hcmd | hcmd
        · exact hc cmd hcmd
        · rw [List.mem_singleton.1 hcmd]
          rw [not_or, not_or, not_not, not_not, not_not] at hnq
          exact ⟨by rw [hsig, hnq.1, not_not.1 hnp], hnq.2.1, hnq.2.2, hg g (by simp)⟩
    obtain ⟨r1, r2, r3⟩ := ih h (fun g hg' => hg g (List.mem_cons_of_mem _ hg')) key.1 key.2.2
    exact ⟨r1, r2.trans key.2.1, r3⟩

/-- The commands of an exported circuit. -/
theorem export_cmds {d : Diagram QOb QBox} {n : Nat} {gs tl : List (Layer QOb QBox)} (h : Exportable d n gs tl) {tk : TkCircuit} (htk : toTkCircuital d = .ok tk) :
    0 ≤ tk.scalar ∧ ∀ cmd ∈ tk.cmds, cmd.OK tk.nQubits := by
  unfold toTkCircuital readoff at htk
  rw [h.circuital, h.numKets] at htk
  simp only [Bool.not_true, Bool.false_eq_true, if_false] at htk
  cases hr : readLoop ⟨List.range n, [], [], [], []⟩ d.layers with
  | error e => rw [hr] at htk; cases htk
  | ok st =>
    rw [hr] at htk
    simp only at htk
    cases ha : addGates ⟨n, st.bitmap.length, [], [], st.postmap, 1⟩ st.gates with
    | error e => rw [ha] at htk; cases htk
    | ok c =>
      rw [ha] at htk
      cases htk
      have := addGates_ok ha (readLoop_dagger hr (fun l hl hb => ?_) (by simp)) (by simp) (by simp)
      · exact ⟨this.1, this.2.2⟩
      · rw [h.layers, List.mem_append, List.mem_append] at hl
        rcases hl with hl | hl | hl
        · rw [(mem_ketLayers l hl).1] at hb; cases hb
        · exact h.gates l hl
        · rcases h.tail l hl with e | e | ⟨v, e⟩ <;> rw [e] at hb <;> cases hb

theorem toItem_spec {n : Nat} {c : TkCmd} (h : c.OK n) (h3 : c.qubits.length = 3 → 0 ∈ c.qubits) : c.toItem.OK n ∧ c.toItem.apply = c.apply := by
  obtain ⟨t, ps, dg, qs⟩ := c
  obtain ⟨h1, h2, h4, h5⟩ := h
  simp only at h1 h2 h4 h5 h3
  cases dg with
  | true =>
    rcases h5 rfl with rfl | rfl
    · have e : some (0, 1) = some (ps.length, qs.length) := h1
      refine ⟨⟨e, h2, h4, h3⟩, ?_⟩
      funext v y
      show tkApply "Sdg" ps qs v y = _
      simp [tkApply, TkCmd.apply, tkOperator, baseOp]
    · have e : some (0, 1) = some (ps.length, qs.length) := h1
      refine ⟨⟨e, h2, h4, h3⟩, ?_⟩
      funext v y
      show tkApply "Tdg" ps qs v y = _
      simp [tkApply, TkCmd.apply, tkOperator, baseOp]
  | false =>
    have key : tkSig t = opSig t ∧ tkOperator t ps = baseOp t ps := by
      unfold opSig at h1
      by_cases k1 : t ∈ ["H", "X", "Y", "Z", "S", "T"]
      · simp only [List.mem_cons, List.not_mem_nil, or_false] at k1
        rcases k1 with rfl | rfl | rfl | rfl | rfl | rfl <;> exact ⟨by decide, rfl⟩
      rw [if_neg k1] at h1
      by_cases k2 : t ∈ ["Rx", "Ry", "Rz"]
      · simp only [List.mem_cons, List.not_mem_nil, or_false] at k2
        rcases k2 with rfl | rfl | rfl <;> exact ⟨by decide, rfl⟩
      rw [if_neg k2] at h1
      by_cases k3 : t ∈ ["CX", "CZ", "SWAP"]
      · simp only [List.mem_cons, List.not_mem_nil, or_false] at k3
        rcases k3 with rfl | rfl | rfl <;> exact ⟨by decide, rfl⟩
      rw [if_neg k3] at h1
      by_cases k4 : t ∈ ["CRx", "CRy", "CRz"]
      · simp only [List.mem_cons, List.not_mem_nil, or_false] at k4
        rcases k4 with rfl | rfl | rfl <;> exact ⟨by decide, rfl⟩
      rw [if_neg k4] at h1
      by_cases k5 : t = "CCX"
      · subst k5; exact ⟨by decide, rfl⟩
      rw [if_neg k5] at h1
      cases h1
    refine ⟨⟨by show tkSig t = _; rw [key.1, h1]; rfl, h2, h4, h3⟩, ?_⟩
    funext v y
    show tkApply t ps qs v y = _
    unfold tkApply TkCmd.apply
    rw [key.2]
    by_cases hsw : t = "SWAP"
    · subst hsw
      simp only [if_true]
      match qs with
      | [] | [_] | [_, _] | _ :: _ :: _ :: _ => rfl
    · simp [hsw]

/-- **C99 (round trip).** Let `d` be a diagram that can be exported (C51), with bits at the end, where every measured or post-selected qubit is written to the bit with its own number and every operation on three qubits
uses the first one, and where the scalar is not 0. The import of its export succeeds and has the same value. -/
theorem C99_roundtrip_partial {d : Diagram QOb QBox} {n : Nat} {gs tl : List (Layer QOb QBox)} (h : Exportable d n gs tl) {k : Nat} (hk : d.cod = List.replicate k QOb.bit) (hn : 0 < n)
    {tk : TkCircuit} (htk : toTkCircuital d = .ok tk) (hid : ∀ m ∈ tk.measures, m.2 = m.1) (h3 : ∀ c ∈ tk.cmds, c.qubits.length = 3 → 0 ∈ c.qubits) (hs : tk.scalar ≠ 0) :
    ∃ d' F F', fromTk tk.toIn = .ok d' ∧ d'.dom = d.dom ∧ d'.cod = d.cod ∧ eval d true = .ok F ∧ eval d' true = .ok F' ∧ ∀ y, Bits k y → F' y = F y := by
  obtain ⟨tk', F, e1, hF, e3, e4, e5, e6, e7, e8, e9, e10⟩ := C51_export h hk
  cases htk.symm.trans e1
  obtain ⟨s1, s2⟩ := export_cmds h htk
  have hp2 : ∀ p ∈ tk.postSelection, p.2 < 2 := by
    obtain ⟨ws, st0, st, tk', t1, t2, t3, t4, t5, s1, s2, s3, s4, -⟩ := export_all h
    cases htk.symm.trans t1
    rw [t5]
    exact readLoop_post s4 (by rw [s3]; simp)
  have hmem : ∀ q, q ∈ tk.measures.map Prod.fst → (q, q) ∈ tk.measures ∧ q < tk.nBits := by
    intro q hq
    obtain ⟨m, hm, rfl⟩ := List.mem_map.1 hq
    have : m = (m.1, m.1) := Prod.ext rfl (hid m hm)
    refine ⟨by rw [← this]; exact hm, ?_⟩
    have h2 : m.2 ∈ tk.measures.map Prod.snd := List.mem_map.2 ⟨m, hm, rfl⟩
    rw [e4, List.mem_range, hid m hm] at h2
    exact h2
  have himp : Importable tk.toIn (tk.cmds.map TkCmd.toItem) tk.measures := by
    refine ⟨rfl, by show 0 < tk.nQubits; rw [e3]; exact hn, ?_, e5, by show ∀ q ∈ _, q < tk.nQubits; rw [e3]; exact e6, by rw [e4]; exact List.Perm.refl _, e7, ?_, hs⟩
    · intro g hg
      obtain ⟨c, hc, rfl⟩ := List.mem_map.1 hg
      exact (toItem_spec (s2 c hc) (h3 c hc)).1
    · intro p hp
      exact ⟨(hmem p.1 (e8 p.1 (List.mem_map.2 ⟨p, hp, rfl⟩))).2, hp2 p hp⟩
  obtain ⟨d', F', i1, i2, i3, i4, i5, i6⟩ := C99_import_partial himp
  have hord : openBits tk.nQubits tk.measures tk.postSelection = (List.range tk.nBits).filter (fun b : Nat => decide (b ∉ tk.postSelection.map Prod.fst)) :=
    C99_ordered himp (fun m hm m' hm' hlt => by rw [hid m hm, hid m' hm']; exact hlt)
  have hopen : openQubits tk = (List.range tk.nBits).filter (fun b : Nat => decide (b ∉ tk.postSelection.map Prod.fst)) := by
    refine List.Pairwise.eq_of_mem_iff (r := (· < ·)) (List.pairwise_lt_range.filter _) (List.pairwise_lt_range.filter _) (fun q => ?_)
    rw [openQubits, List.mem_filter, List.mem_filter, Bool.and_eq_true, List.contains_iff_mem, Bool.not_eq_true', ← Bool.not_eq_true, List.contains_iff_mem, List.mem_range, List.mem_range, decide_eq_true_eq]
    constructor
    · rintro ⟨_, a, b⟩
      exact ⟨(hmem q a).2, b⟩
    · rintro ⟨a, b⟩
      have : q ∈ tk.measures.map Prod.snd := by rw [e4]; exact List.mem_range.2 a
      obtain ⟨m, hm, rfl⟩ := List.mem_map.1 this
      have hk1 : m.2 ∈ tk.measures.map Prod.fst := by rw [hid m hm]; exact List.mem_map.2 ⟨m, hm, rfl⟩
      exact ⟨by rw [e3]; exact e6 _ hk1, hk1, b⟩
  have hkk : tk.nBits - tk.postSelection.length = k := by
    rw [← e9, hopen, ← hord]
    exact (openBits_length himp).symm
  refine ⟨d', F, F', i1, by rw [i2, h.dom], by rw [i3, hk]; show List.replicate (tk.nBits - tk.postSelection.length) _ = _; rw [hkk], hF, i4, ?_⟩
  intro y hy
  obtain ⟨s, t1, t2, t3⟩ := C56_entries tk.postSelection tk.nBits (fun p hp => (hmem p.1 (e8 p.1 (List.mem_map.2 ⟨p, hp, rfl⟩))).2) e7 y (by rw [hkk]; exact hy.1)
  have hproj : (openBits tk.nQubits tk.measures tk.postSelection).map (fun b => s.getD b 0) = y := by
    rw [← t3, project, t1, hord]
    congr 1
    refine List.filter_congr (fun i _ => ?_)
    by_cases hi : i ∈ tk.postSelection.map Prod.fst <;> simp [hi]
  have hsb : Bits tk.nBits s := by
    refine ⟨t1, fun b hb => ?_⟩
    obtain ⟨i, hi, rfl⟩ := List.mem_iff_getElem.1 hb
    by_cases hm : i ∈ tk.postSelection.map Prod.fst
    · obtain ⟨p, hp, rfl⟩ := List.mem_map.1 hm
      have := t2 p hp
      rw [List.getD_eq_getElem?_getD, List.getElem?_eq_getElem hi] at this
      simp only [Option.getD_some] at this
      rw [this]; exact hp2 p hp
    · refine hy.2 _ ?_
      rw [← t3, project]
      refine List.mem_map.2 ⟨i, List.mem_filter.2 ⟨List.mem_range.2 hi, by simpa using hm⟩, ?_⟩
      simp [List.getD_eq_getElem?_getD, hi]
  have hF' := i6 s hsb t2
  have hsel : ∀ j q i, (openQubits tk)[j]? = some q → (q, i) ∈ tk.measures → s.getD i 0 = y.getD j 0 := by
    intro j q i hj hi
    have : i = q := hid _ hi
    subst this
    rw [← hproj]
    rw [hopen, ← hord] at hj
    simp [List.getD_eq_getElem?_getD, hj]
  have hFy := e10 s y hsb hy (fun p hp i hi => by have e : i = p.1 := hid _ hi; rw [e]; exact t2 p hp) hsel
  have hF2 : F' y = (|tk.scalar| * tkProb tk.nQubits (tk.cmds.map TkCmd.toItem) tk.measures s : ℝ) := by rw [← hproj]; exact hF'
  rw [hF2, hFy, abs_of_nonneg s1]
  congr 2
  unfold tkProb TkCircuit.prob
  have hstate : tkState tk.nQubits (tk.cmds.map TkCmd.toItem) = tk.state := by
    unfold tkState TkCircuit.state
    rw [List.foldl_map]
    have : ∀ (cs : List TkCmd) v, (∀ c ∈ cs, c ∈ tk.cmds) → cs.foldl (fun v c => c.toItem.apply v) v = cs.foldl (fun v c => c.apply v) v := by
      intro cs
      induction cs with
      | nil => intros; rfl
      | cons c cs ih =>
        intro v hcs
        rw [List.foldl_cons, List.foldl_cons, (toItem_spec (s2 c (hcs c (by simp))) (h3 c (hcs c (by simp)))).2]
        exact ih _ (fun c hc => hcs c (List.mem_cons_of_mem _ hc))
    exact this _ _ (fun c hc => hc)
  rw [hstate]

/-! ## Examples -/

/-- Three qubits, all kinds of operations, a qubit that is not measured, a post-selected bit, a scalar. -/
def tkDemo : List TkGateItem := [⟨"H", [], [0]⟩, ⟨"CRz", [0.3], [2, 0]⟩, ⟨"Tdg", [], [1]⟩, ⟨"CCX", [], [2, 0, 1]⟩, ⟨"SWAP", [], [2, 0]⟩]

example : Importable ⟨3, 2, tkDemo.map TkGateItem.item ++ [.measure 2 0, .measure 0 1], [(0, 1)], -4⟩ tkDemo [(2, 0), (0, 1)] := by
  refine ⟨rfl, by simp, ?_, by simp, by simp, List.Perm.refl _, by simp, by simp, by norm_num⟩
  simp only [tkDemo, List.forall_mem_cons, List.not_mem_nil, false_imp_iff, implies_true, and_true]
  exact ⟨⟨by decide, by simp, by simp, by simp⟩, ⟨by decide, by simp, by simp, by simp⟩, ⟨by decide, by simp, by simp, by simp⟩, ⟨by decide, by simp, by simp, by simp⟩, ⟨by decide, by simp, by simp, by simp⟩⟩

/-- Two qubits, the first post-selected, the second measured. -/
def braMeasure : Diagram QOb QBox :=
  ⟨[], [.bit], [⟨[], ket false, []⟩, ⟨[.qubit], ket false, []⟩, ⟨[.qubit], X, []⟩, ⟨[], bra false, [.qubit]⟩, ⟨[], measure, []⟩]⟩

/-- The hypotheses of the round trip hold for it. -/
example : ∃ tk d' F F', toTkCircuital braMeasure = .ok tk ∧ fromTk tk.toIn = .ok d' ∧ d'.dom = [] ∧ d'.cod = [.bit] ∧ eval braMeasure true = .ok F ∧ eval d' true = .ok F' ∧ ∀ y, Bits 1 y → F' y = F y := by
  have hexp : Exportable braMeasure 2 [⟨[.qubit], X, []⟩] [⟨[], bra false, [.qubit]⟩, ⟨[], measure, []⟩] := by
    refine ⟨rfl, rfl, by decide, ?_, ?_⟩
    · simp only [List.forall_mem_cons, List.not_mem_nil, false_imp_iff, implies_true, and_true]
      exact .inr (.inr (.inr ⟨X, [], _, _, _, rfl, .x⟩))
    · simp only [List.forall_mem_cons, List.not_mem_nil, false_imp_iff, implies_true, and_true]
      exact ⟨.inr (.inr ⟨_, rfl⟩), .inl rfl⟩
  have hc : isCircuital braMeasure = true := hexp.circuital
  have hn : numKets braMeasure.layers = 2 := hexp.numKets
  have htk : toTkCircuital braMeasure = .ok ⟨2, 2, [⟨"X", [], false, [1]⟩], [(0, 0), (1, 1)], [(0, 0)], 1⟩ := by
    unfold toTkCircuital readoff
    rw [hc, hn]
    simp [readLoop, readStep_X, readStep_ket, readStep_measure, readStep_bra, braMeasure, dictSet, List.range_succ, addGates, addGate, opSig, phaseParams]
  obtain ⟨d', F, F', r1, r2, r3, r4, r5, r6⟩ := C99_roundtrip_partial hexp (k := 1) rfl (by omega) htk (by simp) (by simp) (by simp)
  exact ⟨_, d', F, F', htk, r1, r2, r3, r4, r5, r6⟩

/-- An operation on the second qubit, measured into the first bit. -/
def oneX (scalar : ℝ) : TkIn := ⟨2, 2, [.gate "X" [] [1], .measure 1 0, .measure 0 1], [], scalar⟩

theorem oneX_importable {r : ℝ} (hr : r ≠ 0) : Importable (oneX r) [⟨"X", [], [1]⟩] [(1, 0), (0, 1)] := by
  refine ⟨rfl, by simp [oneX], ?_, by simp, by simp [oneX], List.Perm.refl _, by simp [oneX], by simp [oneX], hr⟩
  simp only [List.forall_mem_cons, List.not_mem_nil, false_imp_iff, implies_true, and_true]
  exact ⟨by decide, by simp, by simp [oneX], by simp⟩

theorem oneX_prob {s : List Nat} (hs : Bits 2 s) : tkProb 2 [⟨"X", [], [1]⟩] [(1, 0), (0, 1)] s = if s = [1, 0] then 1 else 0 := by
  rw [← tkOne_prob [] hs]
  rfl

/-- **C99 refuted (order of the outputs).** The outputs of the imported diagram are in the order of the qubits, not of the bits: the circuit always gives the bits 1, 0; the entry 1, 0 of its import is 0 and the entry 0, 1 is 1. -/
theorem C99_refuted_order : ∃ d F, fromTk (oneX 1) = .ok d ∧ eval d true = .ok F ∧ tkProb 2 [⟨"X", [], [1]⟩] [(1, 0), (0, 1)] [1, 0] = 1 ∧ F [1, 0] = 0 ∧ F [0, 1] = 1 := by
  obtain ⟨d, F, h1, h2, h3, h4, h5, h6⟩ := C99_import_partial (oneX_importable one_ne_zero)
  have ho : openBits 2 [(1, 0), (0, 1)] [] = [1, 0] := by decide +kernel
  refine ⟨d, F, h1, h4, by rw [oneX_prob (by simp [Bits])]; simp, ?_, ?_⟩
  · have := h6 [0, 1] (by simp [Bits, oneX]) (by simp [oneX])
    simp only [oneX, ho] at this
    rw [oneX_prob (by simp [Bits])] at this
    simpa using this
  · have := h6 [1, 0] (by simp [Bits, oneX]) (by simp [oneX])
    simp only [oneX, ho] at this
    rw [oneX_prob (by simp [Bits])] at this
    simpa using this

/-- **C99 refuted (scalar 0).** `Circuit.__init__` replaces the scalar 0 by 1 (tk.py:84), so that a circuit with the scalar 0 is imported like one with the scalar 1. -/
theorem C99_refuted_zero (c : TkIn) : fromTk { c with scalar := 0 } = fromTk { c with scalar := 1 } := by
  simp [fromTk]

/-- **C99 refuted (no qubits).** `Ket()` raises a `TypeError`. -/
theorem C99_refuted_empty (c : TkIn) (h : c.nQubits = 0) : fromTk c = .error .typeError := by
  simp [fromTk, h, kets]

/-- The gate that `apply_gate` gets does not fit. -/
theorem three_error {p0 p1 q : Nat} (h01 : p0 ≠ p1) (h0 : p0 ≠ q) (h1 : p1 ≠ q) (hz : 0 < min (min p0 p1) q) : boxAndOffset "CCX" [] [p0, p1, q] = .error .valueError := by
  have hp0 : p0 < max (max p0 p1) q + 1 := by omega
  obtain ⟨d1, d2, g1, g2, g3, g4, g5, g6, g7⟩ := double_gate X p0 p1 q (max (max p0 p1) q + 1) (by omega) (by omega) (by omega) h01 h0 h1
  obtain ⟨oH, oS, oT, oX, oY, oZ, oR⟩ := oneQubit_gates
  obtain ⟨t1, t2⟩ := nest_type oX [d1, d2]
  have e : threeBox "CCX" = some (controlled (controlled X 1) 1) := by simp [threeBox]
  simp only [boxAndOffset, plainBox, e]
  rw [if_neg (by decide), applyGate_double, g1]
  simp only
  have hne : ∀ r, thenAt (Diagram.id (qubits (max (max p0 p1) q - min (min p0 p1) q + 1))) (ofBox (nest X [d1, d2])) ((min (min p0 p1) q : Nat) : Int) ≠ .ok r := by
    intro r hr
    have := congrArg List.length (thenAt_ok_iff.1 hr).1
    have hl : (ofBox (nest X [d1, d2]) : Diagram QOb QBox).dom.length = width [d1, d2] := by
      show (nest X [d1, d2]).dom.length = _
      rw [t1, qubits_len]
    simp only [Diagram.id, List.length_append, List.length_take, List.length_drop, qubits_len, hl] at this
    omega
  have herr : ∀ (f g : Diagram QOb QBox) i, (∀ r, thenAt f g i ≠ .ok r) → thenAt f g i = .error .valueError := by
    intro f g i h
    unfold thenAt andThen thenN at h ⊢
    unfold thenLoop at h ⊢
    by_cases hh : (tensor (tensor (Diagram.id (pySlice f.cod none (some i))) g) (Diagram.id (pySlice f.cod (some (i + g.dom.length)) none))).dom ≠ f.cod
    · rw [if_pos hh]
    · rw [if_neg hh, thenLoop] at h
      exact absurd rfl (h _)
  rw [herr _ _ _ hne]

/-- **C99 refuted (operations on three qubits).** `apply_gate` gets the indices of the qubits in the circuit, but a diagram on the qubits from the least to the greatest (tk.py:329-337): an operation on three qubits that
does not use the first qubit of the circuit raises a `ValueError`. -/
theorem C99_refuted_ccx {c : TkIn} {gs : List TkGateItem} {rest : List TkItem} {p0 p1 q : Nat} (hn : 0 < c.nQubits) (hgs : ∀ g ∈ gs, g.OK c.nQubits)
    (hc : c.items = gs.map TkGateItem.item ++ .gate "CCX" [] [p0, p1, q] :: rest) (hd : [p0, p1, q].Nodup) (h0 : 0 ∉ [p0, p1, q]) : fromTk c = .error .valueError := by
  obtain ⟨⟨n1, n2⟩, n3⟩ : (p0 ≠ p1 ∧ p0 ≠ q) ∧ p1 ≠ q := by simpa using hd
  simp only [List.mem_cons, List.not_mem_nil, or_false, not_or] at h0
  obtain ⟨ls, g1, -⟩ := import_gates c.post gs hgs (.gate "CCX" [] [p0, p1, q] :: rest) [] ⟨[], qubits c.nQubits, ketLayers 0 c.nQubits⟩ rfl
  unfold fromTk
  rw [kets_ok hn]
  simp only
  rw [hc, g1, importLoop, three_error n1 n2 n3 (by omega)]

/-- It is an operation of `t|ket⟩` on qubits of the circuit. -/
example : tkSig "CCX" = some (0, [1, 2, 3].length) := by decide

/-- **C99 refuted (measurements in the middle).** A measurement of a qubit between the two qubits of a later operation raises a `ValueError`: the wire of the measured qubit is a bit, the controlled gate needs a qubit there. -/
theorem C99_refuted_midcircuit (r : ℝ) : fromTk ⟨3, 1, [.measure 1 0, .gate "CX" [] [0, 2]], [], r⟩ = .error .valueError := by
  unfold fromTk
  rw [kets_ok (show 0 < 3 by omega)]
  rfl

/-- The diagram: the first of two qubits is discarded, the second is post-selected on 0. -/
def discardBra99 : Diagram QOb QBox := ⟨[], [], [⟨[], ket false, []⟩, ⟨[.qubit], ket false, []⟩, ⟨[], discard, [.qubit]⟩, ⟨[], bra false, []⟩]⟩

/-- **C99 refuted (round trip).** `to_tk` uses the number of the qubit as key of `post_selection`, `from_tk` that of the bit: the export of the diagram is imported with a `ValueError`. -/
theorem C99_refuted_roundtrip : ∃ tk, toTkCircuital discardBra99 = .ok tk ∧ fromTk tk.toIn = .error .valueError := by
  have hexp : Exportable discardBra99 2 [] [⟨[], discard, [.qubit]⟩, ⟨[], bra false, []⟩] := by
    refine ⟨rfl, rfl, by decide, by simp, ?_⟩
    simp only [List.forall_mem_cons, List.not_mem_nil, false_imp_iff, implies_true, and_true]
    exact ⟨.inr (.inl rfl), .inr (.inr ⟨_, rfl⟩)⟩
  have hc : isCircuital discardBra99 = true := hexp.circuital
  have hn : numKets discardBra99.layers = 2 := hexp.numKets
  have htk : toTkCircuital discardBra99 = .ok ⟨2, 1, [], [(1, 0)], [(1, 0)], 1⟩ := by
    unfold toTkCircuital readoff
    rw [hc, hn]
    simp [readLoop, readStep, discardBra99, dictSet, List.range_succ, addGates]
  refine ⟨_, htk, ?_⟩
  unfold fromTk TkCircuit.toIn
  rw [kets_ok (by decide)]
  have h1 : ¬ (1 : ℝ) = 0 := one_ne_zero
  simp only [if_neg h1, ne_eq, not_true_eq_false, if_false]
  rfl

end
end QBox
end Lambeq
