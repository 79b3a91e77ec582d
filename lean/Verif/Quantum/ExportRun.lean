import Verif.Quantum.ExportGates

/-!
# Export of circuits (C51): the pure part
-/

namespace Lambeq
open Diagram
set_option linter.unusedSectionVars false
set_option linter.unusedSimpArgs false

namespace QBox
noncomputable section

/-- The boxes that can be exported as gates: swaps of qubits, scalars, square roots and the gates of the table `GateOf`. -/
def ExportGate (b : QBox) : Prop :=
  b = swap .qubit .qubit ∨ (∃ c, b = scalar c) ∨ (∃ c, b = sqrt c) ∨ ∃ g ds t ps dg, b = nest g ds ∧ GateOf g ds t ps dg

/-- The box is handled by the last branch of `readoff_circuital`. -/
def isGate : QBox → Bool
  | ket _ | bra _ | measure | discard => false
  | _ => true

theorem readStep_gate {l : Layer QOb QBox} (h : l.box.isGate = true) {g : Gate} (hg : fromBox l.box l.left.length = .ok g) (st : Info) :
    readStep st l = .ok { st with gates := st.gates ++ [g] } := by
  obtain ⟨L, b, R⟩ := l
  change b.isGate = true at h
  change fromBox b L.length = .ok g at hg
  unfold readStep
  cases b <;> first | (exact absurd h Bool.false_ne_true) | (simp only [hg])

theorem GateOf.isGate {g : QBox} {ds : List Int} {t : String} {ps : List ℝ} {dg : Bool} (hg : GateOf g ds t ps dg) : (nest g ds).isGate = true := by
  cases hg <;> rfl

theorem ExportGate.isGate {b : QBox} (h : ExportGate b) : b.isGate = true := by
  rcases h with rfl | ⟨c, rfl⟩ | ⟨c, rfl⟩ | ⟨g, ds, t, ps, dg, rfl, hg⟩
  · rfl
  · rfl
  · rfl
  · exact hg.isGate

/-- The state after a list of commands. -/
def applyAll (cmds : List TkCmd) (v : List Nat → ℂ) : List Nat → ℂ := cmds.foldl (fun v c => c.apply v) v

theorem tk_applied_congr {P Q : List Nat} {t : Nat} {G G' : Nat → Nat → ℂ} {v : List Nat → ℂ} {y : List Nat} (hP : ∀ p, p ∈ P ↔ p ∈ Q)
    (hG : ∀ i o, i < 2 → o < 2 → G i o = G' i o) (hy : y.getD t 0 < 2) : applied P t G v y = applied Q t G' v y := by
  unfold applied
  rw [hG 0 _ (by omega) hy, hG 1 _ (by omega) hy]
  refine if_congr ?_ rfl rfl
  simp only [hP]

theorem getD_bits {n : Nat} {y : List Nat} (h : Bits n y) (k : Nat) : y.getD k 0 < 2 := by
  rw [List.getD_eq_getElem?_getD]
  cases hk : y[k]? with
  | none => simp
  | some b => exact h.2 b (List.mem_of_getElem? hk)

/-- Commands are linear. -/
theorem TkCmd.apply_smul (c : TkCmd) (κ : ℂ) (v : List Nat → ℂ) (y : List Nat) : c.apply (fun z => κ * v z) y = κ * c.apply v y := by
  unfold TkCmd.apply applied
  split
  · split <;> rfl
  · split
    · ring
    · rfl

theorem applyAll_smul (cmds : List TkCmd) (κ : ℂ) (v : List Nat → ℂ) (y : List Nat) : applyAll cmds (fun z => κ * v z) y = κ * applyAll cmds v y := by
  induction cmds generalizing v with
  | nil => rfl
  | cons c cmds ih =>
    simp only [applyAll, List.foldl_cons] at ih ⊢
    rw [funext (fun y => c.apply_smul κ v y)]
    exact ih (c.apply v)

theorem tk_bits_set {n : Nat} {y : List Nat} (h : Bits n y) {t b : Nat} (hb : b < 2) : Bits n (y.set t b) :=
  ⟨by rw [List.length_set, h.1], fun a ha => by
    rcases List.mem_or_eq_of_mem_set ha with h' | rfl
    · exact h.2 a h'
    · exact hb⟩

theorem TkCmd.apply_congr (c : TkCmd) {n : Nat} {v w : List Nat → ℂ} (h : ∀ y, Bits n y → v y = w y) {y : List Nat} (hy : Bits n y) : c.apply v y = c.apply w y := by
  unfold TkCmd.apply applied
  split
  · split
    · exact h _ (tk_bits_set (tk_bits_set hy (getD_bits hy _)) (getD_bits hy _))
    · exact h _ hy
  · rw [h _ (tk_bits_set hy (by omega)), h _ (tk_bits_set hy (by omega)), h y hy]

theorem applyAll_congr (cmds : List TkCmd) {n : Nat} {v w : List Nat → ℂ} (h : ∀ y, Bits n y → v y = w y) {y : List Nat} (hy : Bits n y) :
    applyAll cmds v y = applyAll cmds w y := by
  induction cmds generalizing v w with
  | nil => exact h y hy
  | cons c cmds ih => exact ih (fun z hz => c.apply_congr h hz)

/-- Exchanging two neighbouring qubits. -/
theorem swap_layer (L R : List QOb) (v : List Nat → ℂ) (y : List Nat) (hy : Bits (L.length + 2 + R.length) y) :
    tnCat.interp.act ⟨L, swap .qubit .qubit, R⟩ v y = v ((y.set L.length (y.getD (L.length + 1) 0)).set (L.length + 1) (y.getD L.length 0)) := by
  obtain ⟨z, yr, rfl, hz, hyr⟩ := hy.split
  obtain ⟨yl, yc, rfl, hyl, hyc⟩ := hz.split
  obtain ⟨a, yc, rfl, ha, hyc⟩ := Bits.uncons (n := 1) hyc
  obtain ⟨b, yc, rfl, hb, hyc⟩ := Bits.uncons (n := 0) hyc
  obtain rfl := hyc.eq_nil
  rw [List.append_assoc, tnCat.interp.act_split ⟨L, swap .qubit .qubit, R⟩ v yr hyl.1 rfl]
  have hi : ∑ i ∈ tnCat.interp.idx [QOb.qubit, QOb.qubit], v (yl ++ (i ++ yr)) * (if [a, b] = i.reverse then 1 else 0) = v (yl ++ ([b, a] ++ yr)) := by
    rw [Finset.sum_eq_single [b, a]]
    · simp
    · intro i _ hne
      rw [if_neg, mul_zero]
      intro e
      exact hne (by rw [← List.reverse_reverse i, ← e]; rfl)
    · intro hn
      exact absurd ((mem_idxQ (t := [QOb.qubit, QOb.qubit]) dim_tn).2 ((Bits.one ha).cons hb)) hn
  refine hi.trans (congrArg v ?_)
  rw [← hyl.1]
  have e1 := getD_append_right yl ([a, b] ++ yr) 0
  have e2 := getD_append_right yl ([a, b] ++ yr) 1
  rw [Nat.add_zero] at e1
  rw [e1, e2, List.set_append_right _ _ (by omega), List.set_append_right _ _ (by omega)]
  simp

/-- Multiplying by a number. -/
theorem scalar_layer {b : QBox} {c : ℂ} (hd : b.dom = []) (hc : b.cod = []) (hk : b.kind = .other) (ha : b.array = .ok ⟨[], [c]⟩) (L R : List QOb)
    (v : List Nat → ℂ) (y : List Nat) (hy : Bits (L.length + R.length) y) : tnCat.interp.act ⟨L, b, R⟩ v y = c * v y := by
  obtain ⟨yl, yr, rfl, hyl, hyr⟩ := hy.split
  have := tnCat.interp.act_split ⟨L, b, R⟩ v (yl := yl) (c := []) yr hyl.1 (by show 0 = b.cod.length; rw [hc]; rfl)
  rw [List.nil_append] at this
  rw [this]
  show ∑ i ∈ tnCat.interp.idx b.dom, v (yl ++ (i ++ yr)) * tnCat.interp.ten b i [] = _
  rw [hd, Interp.idx, Finset.sum_singleton, tnCat_std.ten hk ha, List.nil_append, mul_comm]
  rfl

theorem qubits_split {n : Nat} {L d R : List QOb} (h : L ++ d ++ R = qubits n) : L = qubits L.length ∧ d = qubits d.length ∧ R = qubits R.length ∧ L.length + d.length + R.length = n := by
  have hm : ∀ o ∈ L ++ d ++ R, o = QOb.qubit := by rw [h]; exact fun o ho => (List.mem_replicate.1 ho).2
  refine ⟨List.eq_replicate_iff.2 ⟨rfl, fun o ho => hm o (by simp [ho])⟩, List.eq_replicate_iff.2 ⟨rfl, fun o ho => hm o (by simp [ho])⟩,
    List.eq_replicate_iff.2 ⟨rfl, fun o ho => hm o (by simp [ho])⟩, ?_⟩
  have := congrArg List.length h
  simpa [qubits, Nat.add_assoc] using this

/-- Exporting one layer: what is added to the circuit and what it does to the state. -/
theorem export_layer {n : Nat} {l : Layer QOb QBox} (hb : ExportGate l.box) (hl : l.dom = qubits n) : l.cod = qubits n ∧
    ∃ gate, (∀ st, readStep st l = .ok { st with gates := st.gates ++ [gate] }) ∧ ∃ (cmds : List TkCmd) (κ : ℂ),
      (∀ c : TkCircuit, c.nQubits = n → addGate c gate = .ok { c with cmds := c.cmds ++ cmds, scalar := c.scalar * ‖κ‖ ^ 2 }) ∧
      ∀ v y, Bits n y → tnCat.interp.act l v y = κ * applyAll cmds v y := by
  have hread := fun g hg => readStep_gate (l := l) hb.isGate (g := g) hg
  obtain ⟨L, b, R⟩ := l
  change ExportGate b at hb
  have hl' : L ++ b.dom ++ R = qubits n := hl
  obtain ⟨q1, q2, q3, q4⟩ := qubits_split hl'
  rcases hb with rfl | ⟨c, rfl⟩ | ⟨c, rfl⟩ | ⟨g, ds, t, ps, dg, rfl, hg⟩
  · refine ⟨hl, _, hread _ rfl, [⟨"SWAP", [], false, [L.length, L.length + 1]⟩], 1, ?_, ?_⟩
    · intro c hc
      change L.length + 2 + R.length = n at q4
      simp [addGate, phaseParams, opSig, nameHead, List.range_succ, BoxSig.dom, dom, sig, hc]
      omega
    · intro v y hy
      rw [swap_layer L R v y (by change L.length + 2 + R.length = n at q4; rw [q4]; exact hy), one_mul]
      rfl
  · refine ⟨hl, _, hread _ rfl, [], c, ?_, ?_⟩
    · intro tc hc
      simp [addGate]
    · intro v y hy
      exact scalar_layer rfl rfl rfl rfl L R v y (by change L.length + 0 + R.length = n at q4; rw [Nat.add_zero] at q4; rw [q4]; exact hy)
  · refine ⟨hl, _, hread _ rfl, [], c ^ (1 / 2 : ℂ), ?_, ?_⟩
    · intro tc hc
      simp [addGate]
    · intro v y hy
      exact scalar_layer rfl rfl rfl rfl L R v y (by change L.length + 0 + R.length = n at q4; rw [Nat.add_zero] at q4; rw [q4]; exact hy)
  · obtain ⟨hone, hds, hsw, hsc, hsig, hop, hfrom⟩ := hg.spec
    obtain ⟨gate, f1, f2, f3, f4, f5⟩ := hfrom L.length
    obtain ⟨hty1, hty2⟩ := nest_type hone ds
    obtain ⟨cs, e1, e2, e3, e4, e5, e6⟩ := relOf_spec ds hds
    have hcod : (⟨L, nest g ds, R⟩ : Layer QOb QBox).cod = qubits n := by
      rw [← hl]
      show L ++ (nest g ds).cod ++ R = L ++ (nest g ds).dom ++ R
      rw [hty1, hty2]
    rw [hty1, qubits_length] at q4
    refine ⟨hcod, gate, hread _ f1, [⟨t, ps, dg, gate.qubits⟩], 1, ?_, ?_⟩
    · intro c hc
      have hq : gate.qubits.length = ds.length + 1 ∧ gate.qubits.Nodup ∧ ∀ q ∈ gate.qubits, q < c.nQubits := by
        rw [f3]
        refine ⟨by rw [List.length_map, e1]; simp [e2], e3.map (fun a b h => by simpa using h), ?_⟩
        intro q hq
        obtain ⟨p, hp, rfl⟩ := List.mem_map.1 hq
        have := e5 p hp
        rw [hc]
        show L.length + p < n
        omega
      unfold addGate
      rw [if_neg (by rw [f2]; exact hsc), f2, hsig]
      simp only [f4, ne_eq, not_true_eq_false, if_false, hq.1, hq.2.1, false_or, f5]
      rw [if_neg (by simpa using hq.2.2)]
      simp
    · intro v y hy
      obtain ⟨a, ha, _⟩ := hone.good.array_ok
      rw [nest_layer hone ds hds ha L R v y (by rw [q4]; exact hy), one_mul]
      show _ = TkCmd.apply _ v y
      unfold TkCmd.apply
      have hlast : gate.qubits.getLastD 0 = L.length + targetPos ds := by rw [f3, e1]; simp
      have hdrop : gate.qubits.dropLast = cs.map (L.length + ·) := by rw [f3, e1]; simp
      rw [if_neg hsw]
      simp only [hlast, hdrop]
      refine tk_applied_congr ?_ (fun i o hi ho => hop a ha i o hi ho) (getD_bits hy _)
      intro p
      simp only [List.mem_map, e4]

/-- Exporting the gates. -/
theorem export_gates {n : Nat} (ls : List (Layer QOb QBox)) {t c : List QOb} (hc : Chain t ls c) (ht : t = qubits n) (hb : ∀ l ∈ ls, ExportGate l.box) : c = qubits n ∧
    ∃ gs, (∀ st rest, readLoop st (ls ++ rest) = readLoop { st with gates := st.gates ++ gs } rest) ∧ ∃ (cmds : List TkCmd) (κ : ℂ),
      (∀ c : TkCircuit, c.nQubits = n → addGates c gs = .ok { c with cmds := c.cmds ++ cmds, scalar := c.scalar * ‖κ‖ ^ 2 }) ∧
      ∀ v y, Bits n y → tnCat.interp.run ls v y = κ * applyAll cmds v y := by
  induction ls generalizing t with
  | nil =>
    obtain rfl : t = c := hc
    exact ⟨ht, [], by simp, [], 1, by simp [addGates], fun v y _ => by simp [Interp.run, applyAll]⟩
  | cons l ls ih =>
    obtain ⟨h1, h2⟩ := hc
    obtain ⟨k0, gate, k1, cmds, κ, k2, k3⟩ := export_layer (n := n) (hb l (by simp)) (h1.trans ht)
    obtain ⟨i0, gs, i1, cmds', κ', i2, i3⟩ := ih h2 k0 (fun l hl => hb l (List.mem_cons_of_mem _ hl))
    refine ⟨i0, gate :: gs, ?_, cmds ++ cmds', κ' * κ, ?_, ?_⟩
    · intro st rest
      rw [List.cons_append, readLoop, k1]
      simp only
      rw [i1]
      simp
    · intro c hcn
      rw [addGates, k2 c hcn]
      simp only
      rw [i2 _ (by exact hcn)]
      simp [mul_pow, mul_comm, mul_left_comm, mul_assoc]
    · intro v y hy
      rw [Interp.run, i3 _ y hy, applyAll_congr cmds' (fun z hz => k3 v z hz) hy, applyAll_smul, mul_assoc]
      simp [applyAll]

/-! ## Qubits -/

/-- The first layers of a circuital diagram on `n` qubits, from the qubit number `k` on. -/
def ketLayers (k : Nat) : Nat → List (Layer QOb QBox)
  | 0 => []
  | n + 1 => ⟨qubits k, ket false, []⟩ :: ketLayers (k + 1) n

theorem ket_layer (k : Nat) (v : List Nat → ℂ) (y : List Nat) (b : Nat) (hy : Bits k y) (hb : b < 2) :
    tnCat.interp.act ⟨qubits k, ket false, []⟩ v (y ++ [b]) = if b = 0 then v y else 0 := by
  have := tnCat.interp.act_split ⟨qubits k, ket false, []⟩ v (yl := y) (c := [b]) [] (by rw [hy.1]; exact (qubits_length k).symm) rfl
  rw [List.append_nil] at this
  rw [this]
  show ∑ i ∈ tnCat.interp.idx [], v (y ++ (i ++ [])) * tnCat.interp.ten (ket false) i [b] = _
  rw [Interp.idx, Finset.sum_singleton, tnCat_std.ten (b := ket false) rfl rfl]
  rcases (by omega : b = 0 ∨ b = 1) with rfl | rfl
  · simp [NdArray.get, ravel]
  · simp [NdArray.get, ravel]

theorem chain_kets (k n : Nat) : Chain (qubits k) (ketLayers k n) (qubits (k + n)) := by
  induction n generalizing k with
  | zero => rfl
  | succ n ih =>
    refine ⟨by simp [Layer.dom, BoxSig.dom, dom, sig], ?_⟩
    have : (⟨qubits k, ket false, []⟩ : Layer QOb QBox).cod = qubits (k + 1) := by
      show qubits k ++ [QOb.qubit] ++ [] = _
      rw [List.append_nil, qubits, qubits, List.replicate_succ']
    rw [this, show k + (n + 1) = k + 1 + n by omega]
    exact ih (k + 1)

theorem run_kets (k n : Nat) (v : List Nat → ℂ) (y z : List Nat) (hy : Bits k y) (hz : Bits n z) :
    tnCat.interp.run (ketLayers k n) v (y ++ z) = if z = List.replicate n 0 then v y else 0 := by
  induction n generalizing k y z v with
  | zero => obtain rfl := hz.eq_nil; simp [ketLayers, Interp.run]
  | succ n ih =>
    obtain ⟨b, z, rfl, hb, hz⟩ := hz.uncons
    have := ih (k + 1) (tnCat.interp.act ⟨qubits k, ket false, []⟩ v) (y ++ [b]) z (hy.append (Bits.one hb)) hz
    rw [List.append_assoc, List.singleton_append] at this
    rw [ketLayers, Interp.run, this, ket_layer k v y b hy hb, List.replicate_succ]
    by_cases h : z = List.replicate n 0 <;> by_cases h' : b = 0 <;> simp [h, h']

theorem readLoop_kets (k n : Nat) (st : Info) (rest : List (Layer QOb QBox)) : readLoop st (ketLayers k n ++ rest) = readLoop st rest := by
  induction n generalizing k with
  | zero => rfl
  | succ n ih => rw [ketLayers, List.cons_append, readLoop, readStep]; exact ih (k + 1)

end
end QBox
end Lambeq
