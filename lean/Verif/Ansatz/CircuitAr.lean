import Verif.Ansatz.CircuitProps
import Verif.Quantum.MixedTheorems

/-!
# Circuit ansätze: whole boxes

C49: `CircuitAnsatz._ar` for every size of domain and codomain, number of ancillas and choice of discarding.
-/

namespace Lambeq
open Diagram
set_option linter.unusedSectionVars false
set_option linter.unusedSimpArgs false

namespace QBox
noncomputable section

/-! ## Specification -/

/-- The number of parameters of a box on `N` qubits. -/
def Ansatz.nParams (A : Ansatz) (N : Nat) : Nat := if N = 0 then 0 else if N = 1 then A.nSingle else A.nLayers * A.kind.rowLen N

/-- The gates of a box on `N` qubits. -/
def Ansatz.gates (A : Ansatz) (sym : Nat → ℝ) (N : Nat) : List Op :=
  if N = 0 then []
  else if N = 1 then (List.range A.nSingle).map (fun i => ⟨[], 0, rot (A.rots.getD (i % A.rots.length) .x) (sym i)⟩)
  else A.kind.spec A.nLayers N sym

/-- The ranges of a `StronglyEntanglingAnsatz` are not too large for `N` qubits, and no CNOT would have its control on its target. -/
def AnsatzKind.OK (nl N : Nat) : AnsatzKind → Prop
  | .strong ranges => 2 ≤ N → RangesOK ranges nl N
  | _ => True

def zeros (k : Nat) : List Nat := List.replicate k 0

/-- The amplitude of the gates from `x` and fresh qubits 0 to `z`. -/
def Ansatz.amplitude (A : Ansatz) (sym : Nat → ℝ) (N : Nat) (x z : List Nat) : ℂ :=
  runOps (A.gates sym N) (fun w => if w = x ++ zeros (N - x.length) then 1 else 0) z

/-! ## Proof -/

theorem zeros_bits (k : Nat) : Bits k (zeros k) := ⟨by simp [zeros], fun b hb => by rw [List.eq_of_mem_replicate hb]; omega⟩

theorem range_mul_map (nl k : Nat) (p : Nat → ℝ) :
    (List.range nl).flatMap (fun l => (List.range k).map (fun i => p (l * k + i))) = (List.range (nl * k)).map p := by
  induction nl with
  | zero => simp
  | succ nl ih =>
    rw [List.range_succ, List.flatMap_append, ih, Nat.add_mul, Nat.one_mul, List.range_add]
    simp

theorem phases_rotRow (ax : Axis) (n : Nat) (p : Nat → ℝ) : (rotRow ax n p).flatMap (fun o => phasesOf o.gate) = (List.range n).map p := by
  simp only [rotRow, List.flatMap_map]
  exact flatMap_single _ _

theorem phases_hRow (n : Nat) : (hRow n).flatMap (fun o => phasesOf o.gate) = [] := by
  simp [hRow, List.flatMap_map, phasesOf, H, List.flatMap_eq_nil_iff]

theorem phases_const {L : List Nat} {c : Nat → List Nat} {t : Nat → Nat} {g : QBox} (hg : phasesOf g = []) :
    (L.map (fun i => (⟨c i, t i, g⟩ : Op))).flatMap (fun o => phasesOf o.gate) = [] := by
  simp [List.flatMap_map, hg, List.flatMap_eq_nil_iff]

theorem phases_rots {L : List Nat} {c : Nat → List Nat} {t : Nat → Nat} {ax : Axis} {p : Nat → ℝ} :
    (L.map (fun i => (⟨c i, t i, rot ax (p i)⟩ : Op))).flatMap (fun o => phasesOf o.gate) = L.map p := by
  simp only [List.flatMap_map]
  exact flatMap_single _ _

theorem range_add_map {α : Type} (a b : Nat) (p : Nat → α) : (List.range (a + b)).map p = (List.range a).map p ++ (List.range b).map (fun i => p (a + i)) := by
  simp [List.range_add]

/-- Every parameter of a layer occurs once, in order. -/
theorem phases_layer (kind : AnsatzKind) {n : Nat} (hn : 2 ≤ n) (l : Nat) (p : Nat → ℝ) :
    (kind.layerSpec n l p).flatMap (fun o => phasesOf o.gate) = (List.range (kind.rowLen n)).map p := by
  cases kind with
  | iqp => simp only [AnsatzKind.layerSpec, List.flatMap_append, phases_hRow, phases_rots, List.nil_append, AnsatzKind.rowLen]
  | sim14 =>
    simp only [AnsatzKind.layerSpec, List.flatMap_append, phases_rotRow, phases_rots, AnsatzKind.rowLen]
    rw [show 4 * n = n + n + n + n by omega, range_add_map, range_add_map, range_add_map]
    rw [show n + n + n = 3 * n by omega, show n + n = 2 * n by omega]
  | sim15 =>
    simp only [AnsatzKind.layerSpec, List.flatMap_append, phases_rotRow, phases_const (show phasesOf X = [] from rfl), AnsatzKind.rowLen, List.append_nil]
    rw [show 2 * n = n + n by omega, range_add_map]
  | sim4 =>
    simp only [AnsatzKind.layerSpec, List.flatMap_append, phases_rotRow, phases_rots, AnsatzKind.rowLen]
    rw [show 3 * n - 1 = n + n + (n - 1) by omega, range_add_map, range_add_map]
    simp only [show n + n = 2 * n by omega]
  | sim9 => simp only [AnsatzKind.layerSpec, List.flatMap_append, phases_hRow, phases_rotRow, phases_const (show phasesOf Z = [] from rfl), AnsatzKind.rowLen, List.nil_append]
  | sim9cx => simp only [AnsatzKind.layerSpec, List.flatMap_append, phases_hRow, phases_rotRow, phases_const (show phasesOf X = [] from rfl), AnsatzKind.rowLen, List.nil_append]
  | strong ranges =>
    simp only [AnsatzKind.layerSpec, List.flatMap_append, phases_const (show phasesOf X = [] from rfl), AnsatzKind.rowLen, List.append_nil, List.flatMap_assoc]
    rw [Nat.mul_comm 3 n, ← range_mul_map]
    refine List.flatMap_congr (fun q _ => ?_)
    simp [phasesOf, List.range_succ, Nat.mul_comm]

theorem phases_spec (kind : AnsatzKind) {n : Nat} (hn : 2 ≤ n) (nl : Nat) (p : Nat → ℝ) :
    (kind.spec nl n p).flatMap (fun o => phasesOf o.gate) = (List.range (nl * kind.rowLen n)).map p := by
  have h : ((List.range nl).flatMap (fun l => kind.layerSpec n l (fun i => p (l * kind.rowLen n + i)))).flatMap (fun o => phasesOf o.gate) =
      (List.range (nl * kind.rowLen n)).map p := by
    rw [List.flatMap_assoc, ← range_mul_map]
    exact List.flatMap_congr (fun l _ => phases_layer kind hn l _)
  unfold AnsatzKind.spec
  rw [List.flatMap_append, h]
  cases kind with
  | iqp => by_cases h0 : 0 < nl <;> simp [h0, phases_hRow]
  | _ => simp

/-- The circuits of all ansätze. -/
theorem circuit_imp (kind : AnsatzKind) {n : Nat} (hn : 2 ≤ n) (nl : Nat) (h : kind.OK nl n) (p : Nat → ℝ) :
    ∃ c, kind.circuit nl n (reshapeRows nl (kind.rowLen n) ((List.range (nl * kind.rowLen n)).map p)) = .ok c ∧ Imp n c (kind.spec nl n p) := by
  rw [reshapeRows_eq]
  cases kind with
  | iqp => exact iqp_imp hn nl p
  | sim14 => exact sim14_imp hn nl p
  | sim15 => exact sim15_imp hn nl p
  | sim4 => exact sim4_imp hn nl p
  | sim9 =>
    obtain ⟨c, e, h⟩ := sim9_imp (n := n) Z one_Z Z_ne nl p
    refine ⟨c, e, ?_⟩
    simp only [AnsatzKind.spec, List.append_nil]; exact h
  | sim9cx =>
    obtain ⟨c, e, h⟩ := sim9_imp (n := n) X one_X X_ne nl p
    refine ⟨c, e, ?_⟩
    simp only [AnsatzKind.spec, List.append_nil]; exact h
  | strong ranges => exact strong_imp hn ranges nl (h hn) p

theorem core_imp (A : Ansatz) (hr : A.rots ≠ []) (N : Nat) (h : A.kind.OK A.nLayers N) (sym : Nat → ℝ) :
    ∃ c, A.core sym N = .ok c ∧ Imp N c (A.gates sym N) := by
  unfold Ansatz.core Ansatz.gates
  rcases Nat.lt_or_ge N 2 with hN | hN
  · rcases (by omega : N = 0 ∨ N = 1) with rfl | rfl
    · exact ⟨Diagram.id [], rfl, Imp.id 0⟩
    · simp only [Nat.cast_one, one_ne_zero, if_false, if_true]
      rw [← flatMap_single]
      have := Imp.loop (n := 1) (List.range A.nSingle) (fun (circuit : Circ) (i : Nat) =>
        match A.rots[i % A.rots.length]? with
        | some ax => andThen circuit (ofBox (rot ax (sym i)))
        | none => .ok circuit) (fun i => [⟨[], 0, rot (A.rots.getD (i % A.rots.length) .x) (sym i)⟩]) (fun i _ f a hf => by
          have hlen : 0 < A.rots.length := List.length_pos_iff.2 hr
          have hlt := Nat.mod_lt i hlen
          rw [List.getElem?_eq_getElem hlt, List.getD_eq_getElem?_getD, List.getElem?_eq_getElem hlt]
          have hs := (Imp.id 1).snoc (one_rot A.rots[i % A.rots.length] (sym i)) [] (by simp) 0 0 rfl
          obtain ⟨c, e, h⟩ := hf.comp hs
          exact ⟨c, e, h⟩) (Imp.id 1)
      exact this
  · have h0 : (N : Int) ≠ 0 := by omega
    have h1 : (N : Int) ≠ 1 := by omega
    have h2 : ¬ (N : Int) < 0 := by omega
    simp only [if_neg h0, if_neg h1, if_neg h2, if_neg (show N ≠ 0 by omega), if_neg (show N ≠ 1 by omega), Int.toNat_natCast]
    exact circuit_imp A.kind hN A.nLayers h sym

theorem Imp.den {n : Nat} {c : Circ} {ops : List Op} (h : Imp n c ops) :
    Den c (qubits n) (qubits n) (fun x y => runOps ops (fun w => if w = x then 1 else 0) y) :=
  ⟨⟨h.wt, fun l hl => .inl (h.good l hl).1⟩, h.dom, h.cod, fun x y _ hy => h.run _ y (by rwa [qubits_length] at hy)⟩

theorem Imp.pureQ {n : Nat} {c : Circ} {ops : List Op} (h : Imp n c ops) : PureQ c :=
  ⟨h.wt, fun o ho => by rw [h.dom] at ho; exact List.eq_of_mem_replicate ho, fun l hl => .inl (h.good l hl)⟩

theorem PureQ.comp {f g h : Circ} (hf : PureQ f) (hg : PureQ g) (hc : andThen f g = .ok h) : PureQ h := by
  obtain ⟨h1, rfl⟩ := andThen_ok_iff.1 hc
  refine ⟨TnCat.chain_append hf.wt (h1 ▸ hg.wt), hf.dom, fun l hl => ?_⟩
  rcases List.mem_append.1 hl with hl | hl
  exacts [hf.boxes l hl, hg.boxes l hl]

theorem PureQ.tensor {f g : Circ} (hf : PureQ f) (hg : PureQ g) : PureQ (tensor f g) := by
  refine ⟨(hf.pure.tensor hg.pure).wt, ?_, fun l hl => ?_⟩
  · intro o ho
    rw [tensor_dom] at ho
    rcases List.mem_append.1 ho with h | h
    exacts [hf.dom o h, hg.dom o h]
  · rw [tensor_layers] at hl
    rcases List.mem_append.1 hl with hl | hl
    · obtain ⟨l', h', rfl⟩ := List.mem_map.1 hl; exact hf.boxes l' h'
    · obtain ⟨l', h', rfl⟩ := List.mem_map.1 hl; exact hg.boxes l' h'

theorem PureQ.ofId (n : Nat) : PureQ (Diagram.id (qubits n)) := ⟨rfl, fun _ ho => List.eq_of_mem_replicate ho, by simp [Diagram.id]⟩

theorem PureQ.ofBox {b : QBox} (h : b.Good) (hm : b.isMixed = false) (ht : ∀ o ∈ b.dom ++ b.cod, o = QOb.qubit) : PureQ (ofBox b) :=
  ⟨(PureOK.ofBox (.inl h)).wt, fun o ho => ht o (List.mem_append_left _ ho), fun l hl => by
    simp only [Diagram.ofBox, List.mem_singleton] at hl
    subst hl
    exact .inl ⟨h, hm, ht⟩⟩

/-- `k` copies of a circuit side by side. -/
def power (b : Circ) : Nat → Circ
  | 0 => Diagram.id []
  | k + 1 => tensor b (power b k)

theorem foldr_power (b : Circ) (k : Nat) : (List.replicate k b).foldr tensor (Diagram.id []) = power b k := by
  induction k with
  | zero => rfl
  | succ k ih => simp [List.replicate_succ, power, ih]

theorem tensorRow_replicate (b : QBox) (k : Nat) : tensorRow (List.replicate k b) = power (ofBox b) k := by
  rw [tensorRow, tensorN_eq_foldr, List.foldr_cons, tensor_id_nil_left, List.map_replicate, foldr_power]

theorem power_copies (b : QBox) (k : Nat) : power (ofBox b) k = copies b k := by
  induction k with
  | zero => rfl
  | succ k ih => rw [power, copies, ih]

theorem power_pureQ {b : Circ} (h : PureQ b) (k : Nat) : PureQ (power b k) := by
  induction k with
  | zero => exact PureQ.ofId 0
  | succ k ih => exact h.tensor ih

theorem qubits_one_add (k : Nat) : [QOb.qubit] ++ qubits k = qubits (k + 1) := rfl

theorem den_kets (k : Nat) : Den (power (ofBox (ket false)) k) [] (qubits k) (fun _ y => if y = zeros k then 1 else 0) := by
  induction k with
  | zero => exact (Den.ofId []).congr (fun x y hx hy => by
      rw [show x = [] from Bits.eq_nil hx, show y = [] from Bits.eq_nil hy]; rfl)
  | succ k ih =>
    refine (show Den (power (ofBox (ket false)) (k + 1)) ([] ++ []) ([.qubit] ++ qubits k) _ from (den_ket false).tensor ih).congr (fun x y hx hy => ?_)
    rw [List.length_append, qubits_length] at hy
    obtain ⟨b, y', rfl, hb, hy'⟩ := Bits.uncons (n := k) (by rw [Nat.add_comm]; exact hy)
    simp only [List.length_cons, List.length_nil, List.take_succ_cons, List.take_zero, List.getD_cons_zero, Bool.toNat_false, List.drop_succ_cons, List.drop_zero,
      zeros, List.replicate_succ, List.cons.injEq]
    rw [ite_and_mul]

theorem den_bras (k : Nat) : Den (power (ofBox (bra false)) k) (qubits k) [] (fun x _ => if x = zeros k then 1 else 0) := by
  induction k with
  | zero => exact (Den.ofId []).congr (fun x y hx hy => by
      rw [show x = [] from Bits.eq_nil hx, show y = [] from Bits.eq_nil hy]; rfl)
  | succ k ih =>
    refine (show Den (power (ofBox (bra false)) (k + 1)) ([.qubit] ++ qubits k) ([] ++ []) _ from (den_bra false).tensor ih).congr (fun y x hy hx => ?_)
    rw [List.length_append, qubits_length] at hy
    obtain ⟨b, y', rfl, hb, hy'⟩ := Bits.uncons (n := k) (by rw [Nat.add_comm]; exact hy)
    simp only [List.length_cons, List.length_nil, List.take_succ_cons, List.take_zero, List.getD_cons_zero, Bool.toNat_false, List.drop_succ_cons, List.drop_zero,
      zeros, List.replicate_succ, List.cons.injEq]
    rw [ite_and_mul]

/-- Product of one-qubit amplitudes. -/
def powAmp (M : List Nat → List Nat → ℂ) : List Nat → List Nat → ℂ
  | a :: x, b :: y => M [a] [b] * powAmp M x y
  | _, _ => 1

theorem den_power {b : Circ} {M : List Nat → List Nat → ℂ} (h : Den b [.qubit] [.qubit] M) (k : Nat) : Den (power b k) (qubits k) (qubits k) (powAmp M) := by
  induction k with
  | zero => exact (Den.ofId []).congr (fun x y hx hy => by
      rw [show x = [] from Bits.eq_nil hx, show y = [] from Bits.eq_nil hy]; rfl)
  | succ k ih =>
    refine (show Den (power b (k + 1)) ([.qubit] ++ qubits k) ([.qubit] ++ qubits k) _ from h.tensor ih).congr (fun x y hx hy => ?_)
    rw [List.length_append, qubits_length] at hx hy
    obtain ⟨b, y', rfl, hb, hy'⟩ := Bits.uncons (n := k) (by rw [Nat.add_comm]; exact hy)
    obtain ⟨a, x', rfl, ha, hx'⟩ := Bits.uncons (n := k) (by rw [Nat.add_comm]; exact hx)
    simp [powAmp]

theorem powAmp_zeros (M : List Nat → List Nat → ℂ) (z : List Nat) : powAmp M z (zeros z.length) = (z.map (fun b => M [b] [0])).prod := by
  induction z with
  | nil => rfl
  | cons a z ih => simp only [List.length_cons, zeros, List.replicate_succ, powAmp, List.map_cons, List.prod_cons]; rw [← zeros, ih]

/-- Composition with something on the last `k` qubits. -/
theorem Den.onLast {f g : Circ} {a c : List QOb} {T m k : Nat} {M N : List Nat → List Nat → ℂ} (hf : Den f a (qubits T) M) (hT : T = m + k)
    (hg : Den g (qubits k) c N) :
    ∃ h, andThen f (Diagram.tensor (Diagram.id (qubits m)) g) = .ok h ∧
      Den h a (qubits m ++ c) (fun x y => ∑ z ∈ allBits k, M x (y.take m ++ z) * N z (y.drop m)) := by
  subst hT
  have ht := (Den.ofId (qubits m)).tensor hg
  rw [qubits_add] at ht
  obtain ⟨h, e, hd⟩ := hf.comp ht
  refine ⟨h, e, hd.congr (fun x y hx hy => ?_)⟩
  rw [List.length_append, qubits_length] at hy
  obtain ⟨y1, y2, rfl, hy1, hy2⟩ := hy.split
  rw [qubits_length, sum_allBits_add, List.take_left' hy1.1, List.drop_left' hy1.1, sum_allBits_pick hy1]
  · refine Finset.sum_congr rfl (fun z hz => ?_)
    rw [qubits_length, List.take_left' hy1.1, List.drop_left' hy1.1, List.take_left' hy1.1, List.drop_left' hy1.1, if_pos rfl, one_mul]
  · intro w hw hne
    refine Finset.sum_eq_zero (fun z hz => ?_)
    rw [qubits_length, List.take_left' hy1.1, List.take_left' hw.1, if_neg (fun e => hne e.symm), zero_mul, mul_zero]

theorem addKets_spec {N : Nat} {c : Circ} {ops : List Op} (h : Imp N c ops) (dom cod anc : Nat) (hN : N = max dom cod + anc) :
    ∃ c', addKets dom cod anc c = .ok c' ∧ PureQ c' ∧ phases c' = phases c ∧
      Den c' (qubits dom) (qubits N) (fun x y => runOps ops (fun w => if w = x ++ zeros (N - dom) then 1 else 0) y) := by
  unfold addKets
  by_cases hc : cod > dom ∨ (anc : Int) > 0
  · rw [if_pos hc]
    have hk : max 0 ((cod : Int) - dom) + (anc : Int) = ((N - dom : Nat) : Int) := by omega
    have hpos : 0 < N - dom := by omega
    have hket : ket0s ((N - dom : Nat) : Int) = .ok (power (ofBox (ket false)) (N - dom)) := by
      unfold ket0s
      rw [if_neg (by omega)]
      by_cases h1 : ((N - dom : Nat) : Int) = 1
      · rw [if_pos h1, show N - dom = 1 by omega]
        rw [power, power, tensor_id_nil_right]
      · rw [if_neg h1, Int.toNat_natCast, tensorRow_replicate]
    rw [hk, hket, bind_ok]
    have hQ : PureQ (tensor (Diagram.id (qubits dom)) (power (ofBox (ket false)) (N - dom))) :=
      (PureQ.ofId dom).tensor (power_pureQ (PureQ.ofBox (b := ket false) trivial rfl (by intro o ho; revert o; decide)) _)
    have ht := (Den.ofId (qubits dom)).tensor (den_kets (N - dom))
    rw [qubits_add, List.append_nil, show dom + (N - dom) = N by omega] at ht
    obtain ⟨c', e, hd⟩ := ht.comp h.den
    refine ⟨c', e, hQ.comp h.pureQ e, ?_, hd.congr (fun x y hx hy => ?_)⟩
    · obtain ⟨_, rfl⟩ := andThen_ok_iff.1 e
      have : ∀ k, (power (ofBox (ket false)) k).layers.flatMap (fun l => phasesOf l.box) = [] := by
        intro k
        rw [power_copies, List.flatMap_eq_nil_iff]
        intro l hl
        rw [mem_copies l hl]; rfl
      simp only [phases, tensor_layers, List.flatMap_append, List.flatMap_map, Diagram.id, List.map_nil, List.flatMap_nil, List.nil_append]
      show (power (ofBox (ket false)) (N - dom)).layers.flatMap (fun l => phasesOf l.box) ++ _ = _
      rw [this, List.nil_append]
    · rw [qubits_length] at hx
      have hz : Bits N (x ++ zeros (N - dom)) := by
        have := hx.append (zeros_bits (N - dom)); rwa [show dom + (N - dom) = N by omega] at this
      rw [qubits_length, qubits_length, sum_allBits_pick hz]
      · rw [List.take_of_length_le (show x.length ≤ dom by rw [hx.1]), List.take_left' hx.1, List.drop_left' hx.1, if_pos rfl, if_pos rfl, one_mul, one_mul]
      · intro w hw hne
        have hw' : Bits (dom + (N - dom)) w := by rwa [show dom + (N - dom) = N by omega]
        obtain ⟨w1, w2, rfl, h1, h2⟩ := hw'.split
        rw [List.take_of_length_le (show x.length ≤ dom by rw [hx.1]), List.take_left' h1.1, List.drop_left' h1.1]
        by_cases e1 : w1 = x
        · by_cases e2 : w2 = zeros (N - dom)
          · exact absurd (by rw [e1, e2]) hne
          · rw [if_neg e2]; ring
        · rw [if_neg e1]; ring
  · rw [if_neg hc]
    have hNd : N = dom := by omega
    subst hNd
    exact ⟨c, rfl, h.pureQ, rfl, h.den.congr (fun x y _ _ => by simp [zeros])⟩

theorem pre_spec (A : Ansatz) (hr : A.rots ≠ []) (sym : Nat → ℝ) (dom cod anc N : Nat) (hN : N = max dom cod + anc) (hk : A.kind.OK A.nLayers N) :
    ∃ c, A.arSized sym dom cod anc = A.dropExtras dom cod anc c ∧ PureQ c ∧ phases c = (List.range (A.nParams N)).map sym ∧
      Den c (qubits dom) (qubits N) (fun x y => runOps (A.gates sym N) (fun w => if w = x ++ zeros (N - dom) then 1 else 0) y) := by
  obtain ⟨c0, e0, h0⟩ := core_imp A hr N hk sym
  obtain ⟨c1, e1, q1, p1, d1⟩ := addKets_spec h0 dom cod anc hN
  have hph : phases c0 = (List.range (A.nParams N)).map sym := by
    rw [h0.phases]
    unfold Ansatz.gates Ansatz.nParams
    by_cases n0 : N = 0
    · simp [n0]
    · by_cases n1 : N = 1
      · simp only [n1, one_ne_zero, if_false, if_true, List.flatMap_map]
        exact flatMap_single _ _
      · simp only [if_neg n0, if_neg n1]
        exact phases_spec A.kind (by omega) A.nLayers sym
  refine ⟨c1, ?_, q1, p1.trans hph, d1⟩
  have hcast : (((max dom cod : Nat) : Int) + (anc : Int)) = (N : Int) := by omega
  unfold Ansatz.arSized
  rw [hcast, e0, bind_ok, e1, bind_ok]

/-- **C49 (post-selection).** For all sizes of domain and codomain, all numbers of layers and ancillas: the circuit of a box has the wires that the
object map assigns, every parameter occurs exactly once and in order (followed by those of the basis), and its amplitudes are those of the textbook
circuit with fresh qubits in state 0 and the extra qubits post-selected in the given basis. -/
theorem C49_postselect (A : Ansatz) (hr : A.rots ≠ []) (hd : A.discard = false) {M : List Nat → List Nat → ℂ} (hb : Den A.basis [.qubit] [.qubit] M)
    (hbq : PureQ A.basis) (sym : Nat → ℝ) (dom cod anc : Nat) (hk : A.kind.OK A.nLayers (max dom cod + anc)) :
    ∃ c F, A.arSized sym dom cod anc = .ok c ∧ PureQ c ∧ c.dom = qubits dom ∧ c.cod = qubits cod ∧
      phases c = (List.range (A.nParams (max dom cod + anc))).map sym ++ (List.replicate (max dom cod + anc - cod) (phases A.basis)).flatten ∧
      pureEval c = .ok F ∧ ∀ x y, Bits dom x → Bits cod y → F (x ++ y) =
        ∑ z ∈ allBits (max dom cod + anc - cod), A.amplitude sym (max dom cod + anc) x (y ++ z) * (z.map (fun b => M [b] [0])).prod := by
  set N := max dom cod + anc with hN
  obtain ⟨c1, har, q1, hph, d1⟩ := pre_spec A hr sym dom cod anc N hN hk
  rw [har]
  unfold Ansatz.dropExtras
  by_cases hc : cod < dom ∨ (anc : Int) > 0
  · rw [if_pos hc]
    have hex : max 0 ((dom : Int) - cod) + (anc : Int) = ((N - cod : Nat) : Int) := by omega
    simp only [hd, Bool.false_eq_true, if_false, hex, Int.toNat_natCast]
    have hbra : bra0s ((N - cod : Nat) : Int) = .ok (power (ofBox (bra false)) (N - cod)) := by
      unfold bra0s
      rw [if_neg (by omega)]
      by_cases h1 : ((N - cod : Nat) : Int) = 1
      · rw [if_pos h1, show N - cod = 1 by omega]
        rw [power, power, tensor_id_nil_right]
      · rw [if_neg h1, Int.toNat_natCast, tensorRow_replicate]
    have hNc : N = cod + (N - cod) := by omega
    obtain ⟨c2, e2, d2⟩ := d1.onLast hNc (den_power hb (N - cod))
    rw [qubits_add] at d2
    obtain ⟨c3, e3, d3⟩ := d2.onLast rfl (den_bras (N - cod))
    rw [List.append_nil] at d3
    have hrow : tensorN (Diagram.id (qubits cod) :: List.replicate (N - cod) A.basis) = tensor (Diagram.id (qubits cod)) (power A.basis (N - cod)) := by
      rw [tensorN_eq_foldr, List.foldr_cons, foldr_power]
    obtain ⟨F, f1, f2⟩ := d3.eval
    have q2 : PureQ c2 := q1.comp ((PureQ.ofId cod).tensor (power_pureQ hbq _)) e2
    have q3 : PureQ c3 := q2.comp ((PureQ.ofId cod).tensor (power_pureQ (PureQ.ofBox (b := bra false) trivial rfl (by intro o ho; revert o; decide)) _)) e3
    refine ⟨c3, F, ?_, q3, d3.dom, d3.cod, ?_, f1, fun x y hx hy => ?_⟩
    · rw [hrow, e2, bind_ok, hbra, bind_ok, e3]
    · obtain ⟨_, r2⟩ := andThen_ok_iff.1 e2
      obtain ⟨_, r3⟩ := andThen_ok_iff.1 e3
      have hpow : ∀ k, (power A.basis k).layers.flatMap (fun l => phasesOf l.box) = (List.replicate k (phases A.basis)).flatten := by
        intro k
        induction k with
        | zero => rfl
        | succ k ih =>
          rw [power, tensor_layers, List.flatMap_append, List.flatMap_map, List.flatMap_map, List.replicate_succ, List.flatten_cons, ← ih]; rfl
      have hbr : ∀ k, (power (ofBox (bra false)) k).layers.flatMap (fun l => phasesOf l.box) = [] := by
        intro k
        rw [power_copies, List.flatMap_eq_nil_iff]
        intro l hl
        rw [mem_copies l hl]; rfl
      rw [r3, r2]
      simp only [phases, tensor_layers, List.flatMap_append, List.flatMap_map, Diagram.id, List.map_nil, List.flatMap_nil, List.nil_append]
      show (phases c1 ++ (power A.basis (N - cod)).layers.flatMap (fun l => phasesOf l.box)) ++
        (power (ofBox (bra false)) (N - cod)).layers.flatMap (fun l => phasesOf l.box) = _
      rw [hpow, hbr, hph, List.append_nil]; rfl
    · rw [f2 x y (by rw [qubits_length]; exact hx) (by rw [qubits_length]; exact hy), sum_allBits_pick (zeros_bits (N - cod))]
      · rw [if_pos rfl, mul_one, List.take_of_length_le (show y.length ≤ cod by rw [hy.1]), List.take_left' hy.1, List.drop_left' hy.1]
        refine Finset.sum_congr rfl (fun z hz => ?_)
        rw [Ansatz.amplitude, hx.1]
        have := powAmp_zeros M z
        rw [(mem_allBits.1 hz).1] at this
        rw [this]
      · intro w hw hne
        rw [if_neg hne, mul_zero]
  · rw [if_neg hc]
    have hNc : N - cod = 0 := by omega
    have hNc' : N = cod := by omega
    obtain ⟨F, f1, f2⟩ := d1.eval
    refine ⟨c1, F, rfl, q1, d1.dom, by rw [d1.cod, hNc'], ?_, f1, fun x y hx hy => ?_⟩
    · rw [hph, hNc]; simp
    · rw [f2 x y (by rw [qubits_length]; exact hx) (by rw [qubits_length, hNc']; exact hy), hNc, sum_allBits_zero]
      simp [Ansatz.amplitude, hx.1]

/-- **C49 (computational basis).** With the default basis the extra qubits are projected on 0. -/
theorem C49_computational (A : Ansatz) (hr : A.rots ≠ []) (hd : A.discard = false) (hb : A.basis = Diagram.id [.qubit]) (sym : Nat → ℝ)
    (dom cod anc : Nat) (hk : A.kind.OK A.nLayers (max dom cod + anc)) :
    ∃ c F, A.arSized sym dom cod anc = .ok c ∧ c.WT ∧ c.dom = qubits dom ∧ c.cod = qubits cod ∧
      phases c = (List.range (A.nParams (max dom cod + anc))).map sym ∧
      pureEval c = .ok F ∧ ∀ x y, Bits dom x → Bits cod y →
        F (x ++ y) = A.amplitude sym (max dom cod + anc) x (y ++ zeros (max dom cod + anc - cod)) := by
  obtain ⟨c, F, h1, h2, h3, h4, h5, h6, h7⟩ := C49_postselect A hr hd (hb ▸ Den.ofId [.qubit]) (hb ▸ PureQ.ofId 1) sym dom cod anc hk
  refine ⟨c, F, h1, h2.wt, h3, h4, ?_, h6, fun x y hx hy => ?_⟩
  · rw [h5, hb]
    have : (List.replicate (max dom cod + anc - cod) (phases (Diagram.id [.qubit]))).flatten = ([] : List ℝ) := by
      simp [phases, Diagram.id]
    rw [this, List.append_nil]
  · rw [h7 x y hx hy, sum_allBits_pick (zeros_bits _)]
    · have : ((zeros (max dom cod + anc - cod)).map (fun b => if [0] = [b] then (1 : ℂ) else 0)).prod = 1 := by simp [zeros]
      rw [this, mul_one]
    · intro w hw hne
      have : (w.map (fun b => if [0] = [b] then (1 : ℂ) else 0)).prod = 0 := by
        rw [List.prod_eq_zero_iff]
        by_contra hcon
        apply hne
        refine List.ext_getElem (by rw [hw.1, (zeros_bits _).1]) (fun i hi1 hi2 => ?_)
        have hi : w[i] = 0 := by
          by_contra h0
          exact hcon (List.mem_map.2 ⟨w[i], List.getElem_mem _, if_neg (by simpa using fun e => h0 e.symm)⟩)
        rw [hi]; simp [zeros]
      rw [this, mul_zero]


/-- All boxes of a circuit keep the promise of their flags and can be conjugated. -/
def Nice (c : Circ) : Prop := ∀ l ∈ c.layers, l.box.Adj ∧ l.box.Conj

theorem Nice.comp {f g h : Circ} (hf : Nice f) (hg : Nice g) (hc : andThen f g = .ok h) : Nice h := by
  obtain ⟨_, rfl⟩ := andThen_ok_iff.1 hc
  exact fun l hl => (List.mem_append.1 hl).elim (hf l) (hg l)

theorem Nice.tensor {f g : Circ} (hf : Nice f) (hg : Nice g) : Nice (tensor f g) := by
  intro l hl
  rw [tensor_layers] at hl
  rcases List.mem_append.1 hl with hl | hl
  · obtain ⟨l', h', rfl⟩ := List.mem_map.1 hl; exact hf l' h'
  · obtain ⟨l', h', rfl⟩ := List.mem_map.1 hl; exact hg l' h'

theorem Nice.ofId (t : List QOb) : Nice (Diagram.id t) := by simp [Nice, Diagram.id]

theorem Nice.ofBox {b : QBox} (h : b.Adj ∧ b.Conj) : Nice (ofBox b) := by simpa [Nice, Diagram.ofBox] using h

theorem Nice.power {b : Circ} (h : Nice b) : ∀ k, Nice (power b k)
  | 0 => Nice.ofId []
  | k + 1 => h.tensor (Nice.power h k)

/-- The circuits of the boxes can be conjugated and daggered if the post-selection basis can. -/
theorem arSized_nice (A : Ansatz) (hr : A.rots ≠ []) (hd : A.discard = false) (hb : Nice A.basis) (sym : Nat → ℝ) (dom cod anc : Nat)
    (hk : A.kind.OK A.nLayers (max dom cod + anc)) {c : Circ} (h : A.arSized sym dom cod anc = .ok c) : Nice c := by
  obtain ⟨c0, e0, h0⟩ := core_imp A hr (max dom cod + anc) hk sym
  have hk0 : ∀ {k r}, ket0s k = .ok r → Nice r := by
    intro k r h
    unfold ket0s at h
    split_ifs at h
    · cases h; exact Nice.ofBox (b := ket false) ⟨trivial, trivial⟩
    · cases h
      rw [tensorRow_replicate]
      exact Nice.power (Nice.ofBox (b := ket false) ⟨trivial, trivial⟩) _
  have hb0 : ∀ {k r}, bra0s k = .ok r → Nice r := by
    intro k r h
    unfold bra0s at h
    split_ifs at h
    · cases h; exact Nice.ofBox (b := bra false) ⟨trivial, trivial⟩
    · cases h
      rw [tensorRow_replicate]
      exact Nice.power (Nice.ofBox (b := bra false) ⟨trivial, trivial⟩) _
  have hcast : (((max dom cod : Nat) : Int) + (anc : Int)) = ((max dom cod + anc : Nat) : Int) := by omega
  unfold Ansatz.arSized at h
  rw [hcast, e0, bind_ok] at h
  cases h1 : addKets dom cod anc c0 with
  | error e => rw [h1] at h; cases h
  | ok c1 =>
    rw [h1, bind_ok] at h
    have n1 : Nice c1 := by
      unfold addKets at h1
      split_ifs at h1
      · cases h2 : ket0s (max 0 ((cod : Int) - dom) + anc) with
        | error e => rw [h2] at h1; cases h1
        | ok ks =>
          rw [h2, bind_ok] at h1
          exact ((Nice.ofId _).tensor (hk0 h2)).comp h0.nice h1
      · cases h1; exact h0.nice
    unfold Ansatz.dropExtras at h
    simp only [hd, Bool.false_eq_true, if_false] at h
    split_ifs at h
    · rw [tensorN_eq_foldr, List.foldr_cons, foldr_power] at h
      cases h2 : andThen c1 (Diagram.tensor (Diagram.id (qubits cod)) (QBox.power A.basis (max 0 ((dom : Int) - cod) + (anc : Int)).toNat)) with
      | error e => rw [h2] at h; cases h
      | ok c2 =>
        rw [h2, bind_ok] at h
        have n2 : Nice c2 := n1.comp ((Nice.ofId _).tensor (Nice.power hb _)) h2
        cases h3 : bra0s (max 0 ((dom : Int) - cod) + anc) with
        | error e => rw [h3] at h; cases h
        | ok bs =>
          rw [h3, bind_ok] at h
          exact n2.comp ((Nice.ofId _).tensor (hb0 h3)) h
    · cases h; exact n1

/-- **C49 (discarding).** With `discard=True` the extra qubits are traced out. -/
theorem C49_discard (A : Ansatz) (hr : A.rots ≠ []) (hd : A.discard = true) (sym : Nat → ℝ)
    (dom cod anc : Nat) (hk : A.kind.OK A.nLayers (max dom cod + anc)) :
    ∃ c H, A.arSized sym dom cod anc = .ok c ∧ c.WT ∧ c.dom = qubits dom ∧ c.cod = qubits cod ∧
      phases c = (List.range (A.nParams (max dom cod + anc))).map sym ∧
      eval c true = .ok H ∧ ∀ q r s t, Bits dom q → Bits dom r → Bits cod s → Bits cod t → H ((q ++ r) ++ (s ++ t)) =
        ∑ m ∈ allBits (max dom cod + anc - cod),
          A.amplitude sym (max dom cod + anc) q (s ++ m) * star (A.amplitude sym (max dom cod + anc) r (t ++ m)) := by
  set N := max dom cod + anc with hN
  obtain ⟨c1, har, q1, hph, d1⟩ := pre_spec A hr sym dom cod anc N hN hk
  obtain ⟨F, hF⟩ := C74_total q1.cq
  obtain ⟨G, g1, g2⟩ := d1.eval
  have hmix : eval c1 false = .ok G := by
    have hm : mixedDiagram c1 = false := by
      simp only [mixedDiagram, Bool.or_eq_false_iff, Bool.and_eq_false_iff, decide_eq_false_iff_not, List.any_eq_false]
      refine ⟨.inl (fun hb => ?_), fun b hb => ?_⟩
      · rcases List.mem_append.1 hb with hb | hb
        · exact absurd (q1.dom _ hb) (by decide)
        · exact absurd (q1.cod _ hb) (by decide)
      · obtain ⟨l, hl, rfl⟩ := List.mem_map.1 hb
        rcases q1.boxes l hl with g | g
        · rw [g.2.1]; simp
        · rw [g]; simp [isMixed]
    rw [eval, hm]; simpa using g1
  have hval : ∀ q r s t, Bits dom q → Bits dom r → Bits N s → Bits N t →
      F ((q ++ r) ++ (s ++ t)) = A.amplitude sym N q s * star (A.amplitude sym N r t) := by
    intro q r s t hq hr' hs ht
    rw [C74_pure q1 hF hmix q r s t (by rw [d1.dom, qubits_length]; exact hq) (by rw [d1.dom, qubits_length]; exact hr')
      (by rw [d1.cod, qubits_length]; exact hs) (by rw [d1.cod, qubits_length]; exact ht),
      g2 q s (by rw [qubits_length]; exact hq) (by rw [qubits_length]; exact hs), g2 r t (by rw [qubits_length]; exact hr') (by rw [qubits_length]; exact ht)]
    simp only [Ansatz.amplitude, hq.1, hr'.1]
  rw [har]
  unfold Ansatz.dropExtras
  by_cases hc : cod < dom ∨ (anc : Int) > 0
  · rw [if_pos hc]
    have hex : max 0 ((dom : Int) - cod) + (anc : Int) = ((N - cod : Nat) : Int) := by omega
    simp only [hd, if_true, hex, Int.toNat_natCast, tensorRow_replicate, power_copies]
    have hM : CQOK (copies QBox.discard (N - cod)) := copies_ok (.inr (.inr (.inr (.inl rfl)))) (by simp) _
    have hT : CQOK (Diagram.tensor (Diagram.id (qubits cod)) (copies QBox.discard (N - cod))) :=
      (CQOK.ofId _).tensor hM (.inl (fun l hl e => by rw [mem_copies l hl] at e; cases e))
    have hcod : c1.cod = qubits cod ++ qubits (N - cod) := by rw [d1.cod, qubits_add, show cod + (N - cod) = N by omega]
    have hcomp : ∃ h, andThen c1 (Diagram.tensor (Diagram.id (qubits cod)) (copies QBox.discard (N - cod))) = .ok h := by
      refine ⟨_, andThen_ok_iff.2 ⟨?_, rfl⟩⟩
      rw [tensor_dom, (discards_type _).1]; exact hcod
    obtain ⟨h, e⟩ := hcomp
    have hcq := q1.cq.comp hT e
    obtain ⟨H, hH⟩ := C74_total hcq
    obtain ⟨_, eh⟩ := andThen_ok_iff.1 e
    refine ⟨h, H, e, hcq.wt, by rw [eh]; exact d1.dom, ?_, ?_, hH, fun q r s t hq hr' hs ht => ?_⟩
    · rw [eh]; simp [tensor_cod, (discards_type _).2]; rfl
    · rw [eh]
      have hdz : (copies QBox.discard (N - cod)).layers.flatMap (fun l => phasesOf l.box) = [] := by
        rw [List.flatMap_eq_nil_iff]
        intro l hl
        rw [mem_copies l hl]; rfl
      simp only [phases, tensor_layers, List.flatMap_append, List.flatMap_map, Diagram.id, List.map_nil, List.flatMap_nil, List.nil_append]
      show phases c1 ++ (copies QBox.discard (N - cod)).layers.flatMap (fun l => phasesOf l.box) = _
      rw [hdz, hph, List.append_nil]
    · have hax : axes c1.dom = dom + dom := by
        rw [d1.dom]; unfold axes; rw [(count_qubits_rep dom).1, (count_qubits_rep dom).2]; omega
      have := C74_discard_all q1.cq (qubits cod) (N - cod) hcod e hF hH (q ++ r) [] s t (by rw [hax]; exact hq.append hr')
        (by rw [(count_qubits_rep cod).1]; exact Bits.nil) (by rw [(count_qubits_rep cod).2]; exact hs) (by rw [(count_qubits_rep cod).2]; exact ht)
      simp only [List.nil_append] at this
      rw [this]
      refine Finset.sum_congr rfl (fun m hm => ?_)
      have hm' := mem_allBits.1 hm
      have hNe : cod + (N - cod) = N := by omega
      exact hval q r (s ++ m) (t ++ m) hq hr' (hNe ▸ hs.append hm') (hNe ▸ ht.append hm')
  · rw [if_neg hc]
    have hNc : N - cod = 0 := by omega
    have hNc' : N = cod := by omega
    refine ⟨c1, F, rfl, q1.wt, d1.dom, by rw [d1.cod, hNc'], hph, hF, fun q r s t hq hr' hs ht => ?_⟩
    rw [hNc, sum_allBits_zero, List.append_nil, List.append_nil]
    exact hval q r s t hq hr' (hNc' ▸ hs) (hNc' ▸ ht)

/-! ## Types -/

/-- Number of qubits that the object map gives to a type. -/
def sizeOf' (size : String → Nat) (t : Ty) : Nat := (t.map (fun o => size o.name)).sum

theorem obSize_eq (A : Ansatz) (size : String → Nat) (t : Ty) (h : ∀ o ∈ t, A.obMap o.name = some (size o.name)) : A.obSize t = .ok (sizeOf' size t) := by
  induction t with
  | nil => rfl
  | cons o t ih =>
    rw [Ansatz.obSize, h o (List.mem_cons_self ..), ih (fun o' h' => h o' (List.mem_cons_of_mem _ h'))]
    simp [sizeOf']

/-- **C49 (types).** A box whose types all have a size becomes the circuit for the sums of the sizes, with the symbols `label_0`, `label_1`, ... -/
theorem C49_ar (A : Ansatz) (size : String → Nat) (val : String → ℝ) (label : String) (dom cod : Ty) (anc : Int)
    (h : ∀ o ∈ dom ++ cod, A.obMap o.name = some (size o.name)) :
    A.ar val label dom cod anc = A.arSized (fun i => val (label ++ "_" ++ toString i)) (sizeOf' size dom) (sizeOf' size cod) anc := by
  rw [Ansatz.ar, obSize_eq A size dom (fun o ho => h o (List.mem_append_left _ ho)), bind_ok,
    obSize_eq A size cod (fun o ho => h o (List.mem_append_right _ ho)), bind_ok]

/-- **C49 (unknown types).** A type without size raises. -/
theorem C49_unknown (A : Ansatz) (val : String → ℝ) (label : String) (dom cod : Ty) (anc : Int) (o : Ob) (ho : o ∈ dom ++ cod) (hn : A.obMap o.name = none) :
    A.ar val label dom cod anc = .error .keyError := by
  have aux : ∀ t : Ty, (∃ k, A.obSize t = .ok k) ∨ A.obSize t = .error .keyError := by
    intro t
    induction t with
    | nil => exact .inl ⟨0, rfl⟩
    | cons p t ih =>
      rw [Ansatz.obSize]
      cases A.obMap p.name with
      | none => exact .inr rfl
      | some k => rcases ih with ⟨m, e⟩ | e <;> rw [e] <;> simp
  have aux2 : ∀ t : Ty, o ∈ t → A.obSize t = .error .keyError := by
    intro t
    induction t with
    | nil => intro h; cases h
    | cons p t ih =>
      intro h
      rw [Ansatz.obSize]
      rcases List.mem_cons.1 h with rfl | h
      · rw [hn]
      · cases A.obMap p.name with
        | none => rfl
        | some k => rw [ih h]
  rw [Ansatz.ar]
  rcases List.mem_append.1 ho with h | h
  · rw [aux2 dom h]; rfl
  · rcases aux dom with ⟨k, e⟩ | e
    · rw [e, bind_ok, aux2 cod h]; rfl
    · rw [e]; rfl

/-! ## What fails -/

/-- **C49 (refuted: negative ancillas).** With a negative number of ancillas the circuit of a box can have the wrong number of wires: here a box
from nothing to two qubits becomes a circuit with one qubit. -/
theorem C49_ancillas_refuted (A : Ansatz) (sym : Nat → ℝ) (hs : A.nSingle = 0) :
    ∃ c, A.arSized sym 0 2 (-1) = .ok c ∧ c.dom = [] ∧ c.cod = qubits 1 := by
  have h1 : A.core sym 1 = .ok (Diagram.id (qubits 1)) := by simp [Ansatz.core, hs]; rfl
  have hk : ket0s 1 = .ok (ofBox (ket false)) := by simp [ket0s]
  refine ⟨⟨[], qubits 1, [⟨[], ket false, []⟩]⟩, ?_, rfl, rfl⟩
  have e1 : addKets 0 2 (-1) (Diagram.id (qubits 1)) = .ok ⟨[], qubits 1, [⟨[], ket false, []⟩]⟩ := by
    rw [addKets, if_pos (by omega), show max 0 (((2 : Nat) : Int) - ((0 : Nat) : Int)) + -1 = 1 by decide, hk, bind_ok, andThen_ok_iff]
    exact ⟨rfl, rfl⟩
  have e2 : A.dropExtras 0 2 (-1) ⟨[], qubits 1, [⟨[], ket false, []⟩]⟩ = .ok ⟨[], qubits 1, [⟨[], ket false, []⟩]⟩ := by
    rw [Ansatz.dropExtras, if_neg (by omega)]
  unfold Ansatz.arSized
  rw [show ((max 0 2 : Nat) : Int) + -1 = 1 by decide, h1, bind_ok, e1, bind_ok, e2]

/-- **C49 (ranges).** The constructor of `StronglyEntanglingAnsatz` accepts a list of ranges exactly if there is one for each layer. -/
theorem C49_ranges (rs : List Int) (obMap : String → Option Nat) (nLayers nSingle : Nat) (discard : Bool) (rots : List Axis) (basis : Circ) :
    (∃ A, Ansatz.mk' (.strong (some rs)) obMap nLayers nSingle discard rots basis = .ok A) ↔ rs.length = nLayers := by
  simp only [Ansatz.mk', Option.any_some, bne_iff_ne, ne_eq, ite_not]
  by_cases h : rs.length = nLayers <;> simp [h]

/-- The rotations of a constructed ansatz are never empty. -/
theorem C49_rots {kind : AnsatzKind} {obMap : String → Option Nat} {nLayers nSingle : Nat} {discard : Bool} {rots : List Axis} {basis : Circ} {A : Ansatz}
    (h : Ansatz.mk' kind obMap nLayers nSingle discard rots basis = .ok A) : A.rots ≠ [] ∧ A.kind = kind ∧ A.nLayers = nLayers ∧ A.discard = discard := by
  cases kind with
  | strong ranges =>
    simp only [Ansatz.mk'] at h
    split at h
    · cases h
    · cases h; exact ⟨by simp, rfl, rfl, rfl⟩
  | _ =>
    simp only [Ansatz.mk', Except.ok.injEq] at h
    subst h
    refine ⟨?_, rfl, rfl, rfl⟩
    by_cases hr : rots = [] <;> simp [hr]


/-! ## The methods `circuit` -/

/-- **C49 (circuits).** For at least two qubits, any number of layers and all values of the parameters, the method `circuit` of each ansatz gives a
well-typed circuit on these qubits in which every parameter occurs once and in order, and whose amplitudes are those of the documented gates. -/
theorem C49_circuit (kind : AnsatzKind) {n : Nat} (hn : 2 ≤ n) (nl : Nat) (h : kind.OK nl n) (p : Nat → ℝ) :
    ∃ c F, kind.circuit nl n (reshapeRows nl (kind.rowLen n) ((List.range (nl * kind.rowLen n)).map p)) = .ok c ∧ c.WT ∧
      c.dom = qubits n ∧ c.cod = qubits n ∧ phases c = (List.range (nl * kind.rowLen n)).map p ∧ pureEval c = .ok F ∧
      ∀ x y, Bits n x → Bits n y → F (x ++ y) = runOps (kind.spec nl n p) (fun w => if w = x then 1 else 0) y := by
  obtain ⟨c, e, hi⟩ := circuit_imp kind hn nl h p
  obtain ⟨F, f1, f2⟩ := hi.den.eval
  exact ⟨c, F, e, hi.wt, hi.dom, hi.cod, hi.phases.trans (phases_spec kind hn nl p), f1,
    fun x y hx hy => f2 x y (by rw [qubits_length]; exact hx) (by rw [qubits_length]; exact hy)⟩

/-- **C49 (too large ranges).** A range that is at least the number of qubits raises `ValueError`; the check happens when a box is converted and not when
the ansatz is made. -/
theorem C49_large_range {n : Nat} (hn : 2 ≤ n) (pre post : List Int) (r : Int) (hpre : ∀ s ∈ pre, s < n ∧ ¬ (n : Int) ∣ s) (hr : r ≥ n) (p : Nat → ℝ) :
    (AnsatzKind.strong (some (pre ++ r :: post))).circuit (pre ++ r :: post).length n (rowsOf (pre ++ r :: post).length (3 * n) p) = .error .valueError :=
  strong_large hn pre post r hpre hr p

/-! ## Cases that meet the hypotheses -/

/-- Two layers of the IQP ansatz for sentences of one qubit and nouns of one qubit. -/
def iqpExample : Ansatz :=
  ⟨.iqp, fun s => if s = "n" then some 1 else if s = "s" then some 1 else none, 2, 3, false, [.x, .z], Diagram.id [.qubit]⟩

example : ∃ A, Ansatz.mk' .iqp iqpExample.obMap 2 3 false [] (Diagram.id [.qubit]) = .ok A ∧ A = iqpExample := ⟨_, rfl, rfl⟩
example : iqpExample.rots ≠ [] := by simp [iqpExample]
/-- A transitive verb `n.r @ s @ n.l`: three qubits, 2 · 2 parameters. -/
example : iqpExample.nParams (max 0 3 + 0) = 4 := by simp [Ansatz.nParams, iqpExample, AnsatzKind.rowLen]
example : iqpExample.kind.OK iqpExample.nLayers (max 0 3 + 1) := trivial
example : ∃ c, iqpExample.ar (fun _ => 0) "likes__n.r@s@n.l" [] [⟨"n", 1⟩, ⟨"s", 0⟩, ⟨"n", -1⟩] 0 = .ok c ∧ c.cod = qubits 3 := by
  rw [C49_ar iqpExample (fun _ => 1) _ _ _ _ _ (by decide)]
  obtain ⟨c, F, h1, h2, h3, h4, _⟩ := C49_computational iqpExample (by simp [iqpExample]) rfl rfl (fun i => 0) 0 3 0 trivial
  exact ⟨c, h1, h4⟩
example : (AnsatzKind.strong (some [1, 2])).OK 2 3 := by
  intro _ rs h
  cases h
  refine ⟨rfl, fun r hr => ?_⟩
  simp only [List.mem_cons, List.not_mem_nil, or_false] at hr
  rcases hr with rfl | rfl <;> exact ⟨by decide, by decide⟩
example : (AnsatzKind.strong none).OK 2 3 := by intro _ rs h; cases h
/-- The amplitudes of the specification are not trivial: `H` on both qubits, then `CRz`, then `H` again. -/
example (p : Nat → ℝ) : AnsatzKind.iqp.spec 1 2 p = [⟨[], 0, H⟩, ⟨[], 1, H⟩, ⟨[0], 1, rot .z (p 0)⟩, ⟨[], 0, H⟩, ⟨[], 1, H⟩] := by
  simp [AnsatzKind.spec, AnsatzKind.layerSpec, hRow, List.range_succ, AnsatzKind.rowLen]

end
end QBox
end Lambeq
