import Verif.Quantum.Pennylane

/-!
# PennyLane circuits (C95): gates, scalars and post-selections
-/

namespace Lambeq
open Diagram
set_option linter.unusedSectionVars false
set_option linter.unusedSimpArgs false

namespace QBox
noncomputable section

/-! ## Gates -/

/-- One-qubit gates with controls at the distances `ds` and the operation of `OP_MAP` they become, with its parameters in full turns. Phases are not zero, and there are no adjoints. -/
inductive PlGateOf : QBox → List Int → String → List ℝ → Prop
  | h : PlGateOf H [] "H" []
  | x : PlGateOf X [] "X" []
  | y : PlGateOf Y [] "Y" []
  | z : PlGateOf Z [] "Z" []
  | s : PlGateOf S [] "S" []
  | t : PlGateOf T [] "T" []
  | rx {θ : ℝ} : θ ≠ 0 → PlGateOf (rot .x θ) [] "Rx" [θ]
  | ry {θ : ℝ} : θ ≠ 0 → PlGateOf (rot .y θ) [] "Ry" [θ]
  | rz {θ : ℝ} : θ ≠ 0 → PlGateOf (rot .z θ) [] "Rz" [θ]
  | cx {d : Int} : d ≠ 0 → PlGateOf X [d] "CX" []
  | cy {d : Int} : d ≠ 0 → PlGateOf Y [d] "CY" []
  | cz {d : Int} : d ≠ 0 → PlGateOf Z [d] "CZ" []
  | crx {d : Int} {θ : ℝ} : d ≠ 0 → θ ≠ 0 → PlGateOf (rot .x θ) [d] "CRx" [θ]
  | crz {d : Int} {θ : ℝ} : d ≠ 0 → θ ≠ 0 → PlGateOf (rot .z θ) [d] "CRz" [θ]

theorem plRx_turn (θ : ℝ) : plRx (2 * Real.pi * θ) = tkRx (2 * θ) := by
  unfold plRx tkRx
  rw [show 2 * Real.pi * θ / 2 = Real.pi * (2 * θ) / 2 by ring]

theorem plRy_turn (θ : ℝ) : plRy (2 * Real.pi * θ) = tkRy (2 * θ) := by
  unfold plRy tkRy
  rw [show 2 * Real.pi * θ / 2 = Real.pi * (2 * θ) / 2 by ring]

theorem plRz_turn (θ : ℝ) : plRz (2 * Real.pi * θ) = tkRz (2 * θ) := by
  unfold plRz tkRz
  rw [show -Complex.I * ((2 * Real.pi * θ : ℝ) : ℂ) / 2 = -Complex.I * Real.pi * ((2 * θ : ℝ) : ℂ) / 2 by push_cast; ring,
    show Complex.I * ((2 * Real.pi * θ : ℝ) : ℂ) / 2 = Complex.I * Real.pi * ((2 * θ : ℝ) : ℂ) / 2 by push_cast; ring]

theorem isOp_plx (θ : ℝ) : IsOp (rot .x θ) (plRx (2 * Real.pi * θ)) := by rw [plRx_turn]; exact isOp_rx θ
theorem isOp_ply (θ : ℝ) : IsOp (rot .y θ) (plRy (2 * Real.pi * θ)) := by rw [plRy_turn]; exact isOp_ry θ
theorem isOp_plz (θ : ℝ) : IsOp (rot .z θ) (plRz (2 * Real.pi * θ)) := by rw [plRz_turn]; exact isOp_rz θ

/-- What `from_box` and PennyLane say about a gate of the table. -/
theorem PlGateOf.spec {g : QBox} {ds : List Int} {t : String} {ps : List ℝ} (hgate : PlGateOf g ds t ps) :
    OneQubit g ∧ (∀ d ∈ ds, d ≠ 0) ∧ t ≠ "SWAP" ∧ t ≠ "Scalar" ∧ plSig t = some (ps.length, ds.length + 1) ∧
    IsOp g (plBase t (ps.map (fun p => 2 * Real.pi * p))) ∧ g.isMixed = false ∧ (nest g ds).isGate = true ∧
    ∀ off, ∃ gate, fromBox (nest g ds) off = .ok gate ∧ gate.gtype = t ∧ gate.qubits = (relOf ds).map (off + ·) ∧ plParams gate.phase = ps := by
  obtain ⟨oH, oS, oT, oX, oY, oZ, oR⟩ := oneQubit_gates
  cases hgate with
  | h => exact ⟨oH, by simp, by decide, by decide, by simp [plSig], isOp_H, rfl, rfl, fun off => ⟨_, rfl, rfl, rfl, rfl⟩⟩
  | x => exact ⟨oX, by simp, by decide, by decide, by simp [plSig], isOp_X, rfl, rfl, fun off => ⟨_, rfl, rfl, rfl, rfl⟩⟩
  | y => exact ⟨oY, by simp, by decide, by decide, by simp [plSig], isOp_Y, rfl, rfl, fun off => ⟨_, rfl, rfl, rfl, rfl⟩⟩
  | z => exact ⟨oZ, by simp, by decide, by decide, by simp [plSig], isOp_Z, rfl, rfl, fun off => ⟨_, rfl, rfl, rfl, rfl⟩⟩
  | s => exact ⟨oS, by simp, by decide, by decide, by simp [plSig], isOp_S, rfl, rfl, fun off => ⟨_, rfl, rfl, rfl, rfl⟩⟩
  | t => exact ⟨oT, by simp, by decide, by decide, by simp [plSig], isOp_T, rfl, rfl, fun off => ⟨_, rfl, rfl, rfl, rfl⟩⟩
  | rx hθ => exact ⟨oR _ _, by simp, by decide, by decide, by simp [plSig], isOp_plx _, rfl, rfl,
      fun off => ⟨_, rfl, rfl, rfl, by simp [plParams, hθ]⟩⟩
  | ry hθ => exact ⟨oR _ _, by simp, by decide, by decide, by simp [plSig], isOp_ply _, rfl, rfl,
      fun off => ⟨_, rfl, rfl, rfl, by simp [plParams, hθ]⟩⟩
  | rz hθ => exact ⟨oR _ _, by simp, by decide, by decide, by simp [plSig], isOp_plz _, rfl, rfl,
      fun off => ⟨_, rfl, rfl, rfl, by simp [plParams, hθ]⟩⟩
  | @cx d hd =>
    have hk : ∀ k ∈ [d], k ≠ 0 := by simpa using hd
    refine ⟨oX, hk, by decide, by decide, by simp [plSig], isOp_X, rfl, rfl, fun off => ?_⟩
    obtain ⟨qs, e1, e2⟩ := fromBox_controlled oX rfl d [] hk off (t := "CX") (ph := .none) rfl (by simp)
    exact ⟨_, e2, rfl, e1, rfl⟩
  | @cy d hd =>
    have hk : ∀ k ∈ [d], k ≠ 0 := by simpa using hd
    refine ⟨oY, hk, by decide, by decide, by simp [plSig], isOp_Y, rfl, rfl, fun off => ?_⟩
    obtain ⟨qs, e1, e2⟩ := fromBox_controlled oY rfl d [] hk off (t := "CY") (ph := .none) rfl (by simp)
    exact ⟨_, e2, rfl, e1, rfl⟩
  | @cz d hd =>
    have hk : ∀ k ∈ [d], k ≠ 0 := by simpa using hd
    refine ⟨oZ, hk, by decide, by decide, by simp [plSig], isOp_Z, rfl, rfl, fun off => ?_⟩
    obtain ⟨qs, e1, e2⟩ := fromBox_controlled oZ rfl d [] hk off (t := "CZ") (ph := .none) rfl (by simp)
    exact ⟨_, e2, rfl, e1, rfl⟩
  | @crx d θ hd hθ =>
    have hk : ∀ k ∈ [d], k ≠ 0 := by simpa using hd
    refine ⟨oR _ _, hk, by decide, by decide, by simp [plSig], isOp_plx _, rfl, rfl, fun off => ?_⟩
    obtain ⟨qs, e1, e2⟩ := fromBox_controlled (oR .x θ) rfl d [] hk off (t := "CRx") (ph := .angle θ) rfl rfl
    exact ⟨_, e2, rfl, e1, by simp [plParams, hθ]⟩
  | @crz d θ hd hθ =>
    have hk : ∀ k ∈ [d], k ≠ 0 := by simpa using hd
    refine ⟨oR _ _, hk, by decide, by decide, by simp [plSig], isOp_plz _, rfl, rfl, fun off => ?_⟩
    obtain ⟨qs, e1, e2⟩ := fromBox_controlled (oR .z θ) rfl d [] hk off (t := "CRz") (ph := .angle θ) rfl rfl
    exact ⟨_, e2, rfl, e1, by simp [plParams, hθ]⟩

/-- The number of a scalar or a square root. -/
def numberOf : QBox → Option ℂ
  | scalar c => some c
  | sqrt c => some (c ^ (1 / 2 : ℂ))
  | _ => none

/-- Scalars and square roots. -/
def isNumber (b : QBox) : Bool := b.numberOf.isSome

/-- The boxes that can be converted: swaps of qubits, scalars, square roots and the gates of the table. -/
def PlGate (b : QBox) : Prop := b = swap .qubit .qubit ∨ (∃ c, b = scalar c) ∨ (∃ c, b = sqrt c) ∨ ∃ g ds t ps, b = nest g ds ∧ PlGateOf g ds t ps

theorem PlGate.isGate {b : QBox} (h : PlGate b) : b.isGate = true := by
  rcases h with rfl | ⟨c, rfl⟩ | ⟨c, rfl⟩ | ⟨g, ds, t, ps, rfl, hg⟩
  · rfl
  · rfl
  · rfl
  · exact hg.spec.2.2.2.2.2.2.2.1

theorem PlGate.pure {b : QBox} (h : PlGate b) : (b.Good ∧ b.isMixed = false ∧ ∀ o ∈ b.dom ++ b.cod, o = QOb.qubit) ∨ b = swap .qubit .qubit := by
  rcases h with rfl | ⟨c, rfl⟩ | ⟨c, rfl⟩ | ⟨g, ds, t, ps, rfl, hg⟩
  · exact .inr rfl
  · exact .inl ⟨trivial, rfl, by simp [QBox.dom, cod, sig]⟩
  · exact .inl ⟨trivial, rfl, by simp [QBox.dom, cod, sig]⟩
  · obtain ⟨hone, hds, _, _, _, _, hm, _⟩ := hg.spec
    refine .inl ⟨nest_good hone ds hds, by rw [isMixed_nest, hm], ?_⟩
    obtain ⟨h1, h2⟩ := nest_type hone ds
    rw [h1, h2]
    intro o ho
    rcases List.mem_append.1 ho with ho | ho <;> exact (List.mem_replicate.1 ho).2

/-- The operation of a gate. -/
def Gate.op (g : Gate) : PlOp := ⟨g.gtype, plParams g.phase, g.qubits⟩

/-- The operation gets the right numbers of parameters and wires. -/
def PlOp.Fits (c : PlOp) : Prop := plSig c.name = some (c.params.length, c.wires.length)

/-- Converting one layer, and what the gate does to the state. -/
theorem pl_layer {n : Nat} {l : Layer QOb QBox} (hb : PlGate l.box) (hl : l.dom = qubits n) : l.cod = qubits n ∧
    ∃ gate, (∀ st, readStep st l = .ok { st with gates := st.gates ++ [gate] }) ∧
      ((∃ κ, l.box.numberOf = some κ ∧ gate.number = some κ ∧ ∀ v y, Bits n y → tnCat.interp.act l v y = κ * v y) ∨
       (l.box.numberOf = none ∧ gate.number = none ∧ gate.op.Fits ∧ ∀ v y, Bits n y → tnCat.interp.act l v y = gate.op.apply v y)) := by
  have hread := fun g hg => readStep_gate (l := l) hb.isGate (g := g) hg
  obtain ⟨L, b, R⟩ := l
  change PlGate b at hb
  have hl' : L ++ b.dom ++ R = qubits n := hl
  obtain ⟨q1, q2, q3, q4⟩ := qubits_split hl'
  rcases hb with rfl | ⟨c, rfl⟩ | ⟨c, rfl⟩ | ⟨g, ds, t, ps, rfl, hg⟩
  · refine ⟨hl, _, hread _ rfl, .inr ⟨rfl, rfl, ?_, ?_⟩⟩
    · simp [PlOp.Fits, Gate.op, plSig, nameHead, plParams, BoxSig.dom, dom, sig]
    · intro v y hy
      rw [swap_layer L R v y (by change L.length + 2 + R.length = n at q4; rw [q4]; exact hy)]
      rfl
  · refine ⟨hl, _, hread _ rfl, .inl ⟨c, rfl, rfl, ?_⟩⟩
    intro v y hy
    exact scalar_layer rfl rfl rfl rfl L R v y (by change L.length + 0 + R.length = n at q4; rw [Nat.add_zero] at q4; rw [q4]; exact hy)
  · refine ⟨hl, _, hread _ rfl, .inl ⟨c ^ (1 / 2 : ℂ), rfl, rfl, ?_⟩⟩
    intro v y hy
    exact scalar_layer rfl rfl rfl rfl L R v y (by change L.length + 0 + R.length = n at q4; rw [Nat.add_zero] at q4; rw [q4]; exact hy)
  · have hnum : (nest g ds).numberOf = none := by cases hg <;> rfl
    obtain ⟨hone, hds, hsw, hsc, hsig, hop, _, _, hfrom⟩ := hg.spec
    obtain ⟨gate, f1, f2, f3, f4⟩ := hfrom L.length
    obtain ⟨hty1, hty2⟩ := nest_type hone ds
    obtain ⟨cs, e1, e2, e3, e4, e5, e6⟩ := relOf_spec ds hds
    have hcod : (⟨L, nest g ds, R⟩ : Layer QOb QBox).cod = qubits n := by
      rw [← hl]
      show L ++ (nest g ds).cod ++ R = L ++ (nest g ds).dom ++ R
      rw [hty1, hty2]
    rw [hty1, qubits_length] at q4
    refine ⟨hcod, gate, hread _ f1, .inr ⟨hnum, ?_, ?_, ?_⟩⟩
    · rw [Gate.number, if_neg (by rw [f2]; exact hsc)]
    · show plSig gate.gtype = some ((plParams gate.phase).length, gate.qubits.length)
      rw [f2, f3, f4, hsig, e1]
      simp [e2]
    · intro v y hy
      obtain ⟨a, ha, _⟩ := hone.good.array_ok
      rw [nest_layer hone ds hds ha L R v y (by rw [q4]; exact hy)]
      unfold PlOp.apply
      have hlast : gate.qubits.getLastD 0 = L.length + targetPos ds := by rw [f3, e1]; simp
      have hdrop : gate.qubits.dropLast = cs.map (L.length + ·) := by rw [f3, e1]; simp
      rw [if_neg (by show gate.gtype ≠ "SWAP"; rw [f2]; exact hsw)]
      show _ = applied gate.qubits.dropLast (gate.qubits.getLastD 0) (ofMatrix (plBase gate.gtype ((plParams gate.phase).map (fun p => 2 * Real.pi * p)))) v y
      rw [f2, f4, hlast, hdrop]
      refine tk_applied_congr ?_ (fun i o hi ho => hop a ha i o hi ho) (getD_bits hy _)
      intro p
      simp only [List.mem_map, e4]

theorem PlOp.apply_smul (c : PlOp) (κ : ℂ) (v : List Nat → ℂ) (y : List Nat) : c.apply (fun z => κ * v z) y = κ * c.apply v y := by
  unfold PlOp.apply applied
  split
  · split <;> rfl
  · split
    · ring
    · rfl

theorem PlOp.apply_congr (c : PlOp) {n : Nat} {v w : List Nat → ℂ} (h : ∀ y, Bits n y → v y = w y) {y : List Nat} (hy : Bits n y) : c.apply v y = c.apply w y := by
  unfold PlOp.apply applied
  split
  · split
    · exact h _ (tk_bits_set (tk_bits_set hy (getD_bits hy _)) (getD_bits hy _))
    · exact h _ hy
  · rw [h _ (tk_bits_set hy (by omega)), h _ (tk_bits_set hy (by omega)), h y hy]

/-- The state after a list of operations. -/
def plAll (cs : List PlOp) (v : List Nat → ℂ) : List Nat → ℂ := cs.foldl (fun v c => c.apply v) v

theorem plAll_smul (cs : List PlOp) (κ : ℂ) (v : List Nat → ℂ) (y : List Nat) : plAll cs (fun z => κ * v z) y = κ * plAll cs v y := by
  induction cs generalizing v with
  | nil => rfl
  | cons c cs ih =>
    simp only [plAll, List.foldl_cons] at ih ⊢
    rw [funext (fun y => c.apply_smul κ v y)]
    exact ih (c.apply v)

theorem plAll_congr (cs : List PlOp) {n : Nat} {v w : List Nat → ℂ} (h : ∀ y, Bits n y → v y = w y) {y : List Nat} (hy : Bits n y) : plAll cs v y = plAll cs w y := by
  induction cs generalizing v w with
  | nil => exact h y hy
  | cons c cs ih => exact ih (fun z hz => c.apply_congr h hz)

theorem plRun_fits (cs : List PlOp) (h : ∀ c ∈ cs, c.Fits) (v : List Nat → ℂ) : plRun cs v = .ok (plAll cs v) := by
  induction cs generalizing v with
  | nil => rfl
  | cons c cs ih =>
    have h1 : plSig c.name = some (c.params.length, c.wires.length) := h c (by simp)
    rw [plRun, h1]
    simp only [ne_eq, not_true_eq_false, if_false]
    exact ih (fun c hc => h c (List.mem_cons_of_mem _ hc)) _

theorem plOps_fits (gs : List Gate) (h : ∀ g ∈ gs, g.op.Fits) : plOps gs = .ok (gs.map Gate.op) := by
  induction gs with
  | nil => rfl
  | cons g gs ih =>
    have h1 : plSig g.gtype = some _ := h g (by simp)
    rw [plOps, if_neg (by rw [h1]; simp), ih (fun g hg => h g (List.mem_cons_of_mem _ hg))]
    rfl

/-- The gates of a circuit: the numbers and the operations. -/
theorem pl_gates {n : Nat} (ls : List (Layer QOb QBox)) {t c : List QOb} (hc : Chain t ls c) (ht : t = qubits n) (hb : ∀ l ∈ ls, PlGate l.box) : c = qubits n ∧
    ∃ gs : List Gate, (∀ st rest, readLoop st (ls ++ rest) = readLoop { st with gates := st.gates ++ gs } rest) ∧
      gs.map Gate.number = ls.map (fun l => l.box.numberOf) ∧ (∀ g ∈ gs, g.number = none → g.op.Fits) ∧
      ∀ v y, Bits n y → tnCat.interp.run ls v y = (gs.filterMap Gate.number).prod * plAll ((gs.filter (fun g => g.number.isNone)).map Gate.op) v y := by
  induction ls generalizing t with
  | nil =>
    obtain rfl : t = c := hc
    exact ⟨ht, [], by simp, rfl, by simp, fun v y _ => by simp [Interp.run, plAll]⟩
  | cons l ls ih =>
    obtain ⟨h1, h2⟩ := hc
    obtain ⟨k0, gate, k1, k2⟩ := pl_layer (n := n) (hb l (by simp)) (h1.trans ht)
    obtain ⟨i0, gs, i1, i2, i3, i4⟩ := ih h2 k0 (fun l hl => hb l (List.mem_cons_of_mem _ hl))
    have hrd : ∀ st rest, readLoop st (l :: ls ++ rest) = readLoop { st with gates := st.gates ++ gate :: gs } rest := by
      intro st rest
      rw [List.cons_append, readLoop, k1]
      simp only
      rw [i1]
      simp
    rcases k2 with ⟨κ, kn, k3, k4⟩ | ⟨kn, k3, k4, k5⟩
    · refine ⟨i0, gate :: gs, hrd, ?_, ?_, ?_⟩
      · simp [i2, k3, kn]
      · intro g hg hn
        rcases List.mem_cons.1 hg with rfl | hg
        · rw [k3] at hn; simp at hn
        · exact i3 g hg hn
      · intro v y hy
        rw [Interp.run, i4 _ y hy, plAll_congr _ (fun z hz => k4 v z hz) hy, plAll_smul, List.filterMap_cons_some k3, List.prod_cons,
          List.filter_cons_of_neg (by simp [k3])]
        ring
    · refine ⟨i0, gate :: gs, hrd, ?_, ?_, ?_⟩
      · simp [i2, k3, kn]
      · intro g hg hn
        rcases List.mem_cons.1 hg with rfl | hg
        · exact k4
        · exact i3 g hg hn
      · intro v y hy
        rw [Interp.run, i4 _ y hy, plAll_congr _ (fun z hz => k5 v z hz) hy, List.filterMap_cons_none k3, List.filter_cons_of_pos (by simp [k3])]
        rfl

/-! ## Scalars -/

/-- Where no two scalars follow one another, the loop takes out all of them. -/
theorem takeScalars_apart (gs : List Gate) (h : gs.IsChain (fun a b => ¬ (a.number.isSome = true ∧ b.number.isSome = true))) :
    takeScalars gs = ((gs.filterMap Gate.number).prod, gs.filter (fun g => g.number.isNone)) := by
  induction gs using takeScalars.induct with
  | case1 => rfl
  | case2 g c hc => rw [takeScalars, hc]; simp [hc]
  | case3 g hc => rw [takeScalars, hc]; simp [hc]
  | case4 g h' gs c hc ih =>
    rw [List.isChain_cons_cons] at h
    have h1 : h'.number = none := by
      cases hh : h'.number with
      | none => rfl
      | some x => exact absurd ⟨by rw [hc]; rfl, by rw [hh]; rfl⟩ h.1
    have h2 := ih (List.IsChain.tail h.2)
    rw [takeScalars, hc]
    simp only
    rw [h2]
    simp [hc, h1]
  | case5 g h' gs hc ih =>
    rw [List.isChain_cons_cons] at h
    rw [takeScalars, hc]
    simp only
    rw [ih h.2]
    simp [hc]

/-- Where two scalars follow one another, the loop leaves one. -/
theorem takeScalars_left (gs : List Gate) (h : ¬ gs.IsChain (fun a b => ¬ (a.number.isSome = true ∧ b.number.isSome = true))) :
    ∃ g ∈ (takeScalars gs).2, g.number.isSome = true := by
  induction gs using takeScalars.induct with
  | case1 => simp at h
  | case2 g c hc => simp at h
  | case3 g hc => simp at h
  | case4 g h' gs c hc ih =>
    rw [takeScalars, hc]
    simp only
    by_cases h1 : h'.number.isSome = true
    · exact ⟨h', by simp, h1⟩
    · have h2 : ¬ gs.IsChain (fun a b => ¬ (a.number.isSome = true ∧ b.number.isSome = true)) := by
        intro h2
        apply h
        rw [List.isChain_cons_cons]
        refine ⟨fun hh => h1 hh.2, ?_⟩
        cases gs with
        | nil => simp
        | cons a gs => exact List.isChain_cons_cons.2 ⟨fun hh => h1 hh.1, h2⟩
      obtain ⟨x, hx, hs⟩ := ih h2
      exact ⟨x, List.mem_cons_of_mem _ hx, hs⟩
  | case5 g h' gs hc ih =>
    rw [takeScalars, hc]
    simp only
    have h2 : ¬ (h' :: gs).IsChain (fun a b => ¬ (a.number.isSome = true ∧ b.number.isSome = true)) := by
      intro h2
      apply h
      rw [List.isChain_cons_cons]
      exact ⟨fun hh => by rw [hc] at hh; simp at hh, h2⟩
    obtain ⟨x, hx, hs⟩ := ih h2
    exact ⟨x, List.mem_cons_of_mem _ hx, hs⟩

theorem plOps_number (gs : List Gate) (h : ∃ g ∈ gs, g.number.isSome = true) : plOps gs = .error .keyError := by
  induction gs with
  | nil => obtain ⟨g, hg, _⟩ := h; cases hg
  | cons a gs ih =>
    rw [plOps]
    by_cases h1 : plSig a.gtype = none
    · rw [if_pos h1]
    · rw [if_neg h1]
      obtain ⟨g, hg, hs⟩ := h
      rcases List.mem_cons.1 hg with rfl | hg
      · exfalso
        unfold Gate.number at hs
        split at hs
        · rename_i e
          apply h1
          rw [e]
          simp [plSig]
        · simp at hs
      · rw [ih ⟨g, hg, hs⟩]

end
end QBox
end Lambeq
