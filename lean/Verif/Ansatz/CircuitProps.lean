import Verif.Ansatz.Circuit
import Verif.Quantum.Conjugate
import Verif.Training.EarlyStopProps

/-!
# What the ansatz circuits are

C49: the circuits of the ansätze as lists of gates on named qubits, their types, parameters and values.
-/

namespace Lambeq
open Diagram
set_option linter.unusedSectionVars false
set_option linter.unusedSimpArgs false

namespace QBox
noncomputable section

/-! ## Specification -/

/-- A textbook gate: a one-qubit gate on qubit `tgt`, applied when all qubits in `ctrl` are 1. -/
structure Op where
  ctrl : List Nat
  tgt : Nat
  gate : QBox

/-- The amplitudes of a one-qubit gate. -/
def gateAmp (g : QBox) : Nat → Nat → ℂ := match g.array with
  | .ok a => amp a
  | .error _ => fun _ _ => 0

/-- Running a list of gates on a state vector. -/
def runOps (ops : List Op) (v : List Nat → ℂ) : List Nat → ℂ := ops.foldl (fun v o => applied o.ctrl o.tgt (gateAmp o.gate) v) v

/-- The phases in a box. -/
def phasesOf : QBox → List ℝ
  | rot _ θ => [θ]
  | controlled u _ => u.phasesOf
  | daggered b => b.phasesOf
  | _ => []

/-- The phases of a circuit, in the order of its boxes. -/
def phases (c : Circ) : List ℝ := c.layers.flatMap (fun l => phasesOf l.box)

/-- A gate on every qubit, with the phases `p 0`, `p 1`, ... -/
def rotRow (ax : Axis) (n : Nat) (p : Nat → ℝ) : List Op := (List.range n).map (fun q => ⟨[], q, rot ax (p q)⟩)
def hRow (n : Nat) : List Op := (List.range n).map (fun q => ⟨[], q, H⟩)

/-- The distance between control and target of the CNOTs of a layer of `StronglyEntanglingAnsatz`. -/
def rangeOf (ranges : Option (List Int)) (n layer : Nat) : Int := match ranges with
  | none => (layer : Int) % (n - 1) + 1
  | some rs => rs.getD layer 0

/-- One layer of each ansatz on `n` qubits; `p i` is the `i`-th parameter of the layer. -/
def AnsatzKind.layerSpec (n layer : Nat) (p : Nat → ℝ) : AnsatzKind → List Op
  | iqp => hRow n ++ (List.range (n - 1)).map (fun i => ⟨[i], i + 1, rot .z (p i)⟩)
  | sim14 =>
    rotRow .y n p ++ (List.range n).map (fun i => ⟨[i], (i + n - 1) % n, rot .x (p (n + i))⟩) ++
    rotRow .y n (fun q => p (2 * n + q)) ++ (List.range n).map (fun k => ⟨[(n - k) % n], (n - k + 1) % n, rot .x (p (3 * n + k))⟩)
  | sim15 =>
    rotRow .y n p ++ (List.range n).map (fun i => ⟨[i], (i + n - 1) % n, X⟩) ++
    rotRow .y n (fun q => p (n + q)) ++ (List.range n).map (fun k => ⟨[(n - k) % n], (n - k + 1) % n, X⟩)
  | sim4 =>
    rotRow .x n p ++ rotRow .z n (fun q => p (n + q)) ++ (List.range (n - 1)).map (fun i => ⟨[i], i + 1, rot .x (p (2 * n + i))⟩)
  | sim9 => hRow n ++ (List.range (n - 1)).map (fun i => ⟨[i], i + 1, Z⟩) ++ rotRow .x n p
  | sim9cx => hRow n ++ (List.range (n - 1)).map (fun i => ⟨[i], i + 1, X⟩) ++ rotRow .x n p
  | strong ranges =>
    (List.range n).flatMap (fun q => [⟨[], q, rot .z (p (3 * q))⟩, ⟨[], q, rot .y (p (3 * q + 1))⟩, ⟨[], q, rot .z (p (3 * q + 2))⟩]) ++
    (List.range n).map (fun q => ⟨[q], (((q : Int) + rangeOf ranges n layer) % n).toNat, X⟩)

/-- The whole circuit: the layers one after the other, with consecutive parameters, and for IQP a last row of Hadamard gates. -/
def AnsatzKind.spec (kind : AnsatzKind) (nLayers n : Nat) (p : Nat → ℝ) : List Op :=
  (List.range nLayers).flatMap (fun l => kind.layerSpec n l (fun i => p (l * kind.rowLen n + i))) ++
  (match kind with
    | .iqp => if nLayers > 0 then hRow n else []
    | _ => [])

/-! ## Circuits that implement a list of gates -/

/-- One-qubit gates that are not mixed. -/
structure Gate1 (g : QBox) : Prop extends OneQubit g where
  pure : g.isMixed = false
  adj : g.Adj
  conj : g.Conj

structure Imp (n : Nat) (c : Circ) (ops : List Op) : Prop where
  wt : c.WT
  dom : c.dom = qubits n
  cod : c.cod = qubits n
  good : ∀ l ∈ c.layers, l.box.Good ∧ l.box.isMixed = false ∧ ∀ o ∈ l.box.dom ++ l.box.cod, o = QOb.qubit
  phases : phases c = ops.flatMap (fun o => phasesOf o.gate)
  lt : ∀ o ∈ ops, o.tgt < n
  run : ∀ v y, Bits n y → tnCat.interp.run c.layers v y = runOps ops v y
  nice : ∀ l ∈ c.layers, l.box.Adj ∧ l.box.Conj

theorem bits_set {n t b : Nat} {y : List Nat} (hy : Bits n y) (hb : b < 2) : Bits n (y.set t b) := by
  refine ⟨by simp [hy.1], fun c hc => ?_⟩
  rcases List.mem_or_eq_of_mem_set hc with h | h
  · exact hy.2 c h
  · omega

theorem applied_congr {n : Nat} (P : List Nat) (t : Nat) (G : Nat → Nat → ℂ) {v w : List Nat → ℂ} (h : ∀ y, Bits n y → v y = w y) {y : List Nat}
    (hy : Bits n y) : applied P t G v y = applied P t G w y := by
  unfold applied
  rw [h y hy, h _ (bits_set hy (by omega)), h _ (bits_set hy (by omega))]

theorem runOps_congr {n : Nat} (ops : List Op) {v w : List Nat → ℂ} (h : ∀ y, Bits n y → v y = w y) {y : List Nat}
    (hy : Bits n y) : runOps ops v y = runOps ops w y := by
  induction ops generalizing v w with
  | nil => exact h y hy
  | cons o ops ih => exact ih (fun z hz => applied_congr _ _ _ h hz)

theorem runOps_append (a b : List Op) (v : List Nat → ℂ) : runOps (a ++ b) v = runOps b (runOps a v) := by simp [runOps]

theorem Imp.id (n : Nat) : Imp n (Diagram.id (qubits n)) [] :=
  ⟨rfl, rfl, rfl, by simp [Diagram.id], rfl, by simp, fun _ _ _ => rfl, by simp [Diagram.id]⟩

theorem Imp.comp {n : Nat} {f g : Circ} {a b : List Op} (hf : Imp n f a) (hg : Imp n g b) : ∃ h, andThen f g = .ok h ∧ Imp n h (a ++ b) := by
  have e : f.cod = g.dom := by rw [hf.cod, hg.dom]
  refine ⟨_, andThen_eq_ok e, ?_, hf.dom, hg.cod, ?_, ?_, ?_, ?_, fun l hl => (List.mem_append.1 hl).elim (hf.nice l) (hg.nice l)⟩
  · have h1 : Chain f.dom f.layers f.cod := hf.wt
    have h2 : Chain g.dom g.layers g.cod := hg.wt
    rw [← e] at h2
    exact h1.append h2
  · intro l hl
    rcases List.mem_append.1 hl with hl | hl
    · exact hf.good l hl
    · exact hg.good l hl
  · show (f.layers ++ g.layers).flatMap _ = _
    rw [List.flatMap_append, List.flatMap_append, ← hf.phases, ← hg.phases]; rfl
  · intro o ho
    rcases List.mem_append.1 ho with h | h
    · exact hf.lt o h
    · exact hg.lt o h
  · intro v y hy
    show tnCat.interp.run (f.layers ++ g.layers) v y = _
    rw [tnCat.interp.run_append, hg.run _ y hy, runOps_append]
    exact runOps_congr _ (fun z hz => hf.run v z hz) hy

/-- Extending the list of layers by one controlled gate. -/
theorem Imp.snoc {n : Nat} {f : Circ} {a : List Op} (hf : Imp n f a) {g : QBox} (hg : Gate1 g) (ds : List Int) (h : ∀ d ∈ ds, d ≠ 0) (m r : Nat)
    (hn : m + width ds + r = n) :
    Imp n ⟨f.dom, f.cod, f.layers ++ [(⟨qubits m, nest g ds, qubits r⟩ : Layer QOb QBox)]⟩
      (a ++ [⟨(controlPos ds).map (m + ·), m + targetPos ds, g⟩]) := by
  obtain ⟨t1, t2⟩ := nest_type hg.toOneQubit ds
  obtain ⟨A, eA, _⟩ := hg.good.array_ok
  have hq : qubits n = qubits m ++ qubits (width ds) ++ qubits r := by rw [qubits_add, qubits_add, hn]
  refine ⟨?_, hf.dom, hf.cod, ?_, ?_, ?_, ?_, fun l hl => (List.mem_append.1 hl).elim (hf.nice l) (fun hl => by
    rw [List.mem_singleton] at hl
    subst hl
    show (nest g ds).Adj ∧ (nest g ds).Conj
    clear hl h hn t1 t2 hq
    induction ds with
    | nil => exact ⟨hg.adj, hg.conj⟩
    | cons d ds ih => exact ih)⟩
  · refine (show Chain f.dom f.layers f.cod from hf.wt).append ⟨?_, ?_⟩
    · show qubits m ++ (nest g ds).dom ++ qubits r = _; rw [t1, hf.cod, hq]
    · show qubits m ++ (nest g ds).cod ++ qubits r = _; rw [t2, hf.cod, hq]
  · intro l hl
    rcases List.mem_append.1 hl with hl | hl
    · exact hf.good l hl
    · rw [List.mem_singleton] at hl; subst hl
      refine ⟨nest_good hg.toOneQubit ds h, ?_, ?_⟩
      · have : ∀ ds, (nest g ds).isMixed = g.isMixed := fun ds => by
          induction ds with
          | nil => rfl
          | cons d ds ih => exact ih
        exact (this ds).trans hg.pure
      · intro o ho
        show o = QOb.qubit
        have ho' : o ∈ (nest g ds).dom ++ (nest g ds).cod := ho
        rw [t1, t2, qubits_add] at ho'
        exact List.eq_of_mem_replicate ho'
  · show (f.layers ++ _).flatMap _ = _
    rw [List.flatMap_append, List.flatMap_append, ← hf.phases]
    have : phasesOf (nest g ds) = phasesOf g := by
      clear h hn t1 t2 hq
      induction ds with
      | nil => rfl
      | cons d ds ih => exact ih
    simp only [List.flatMap_cons, List.flatMap_nil, List.append_nil, this]; rfl
  · intro o ho
    rcases List.mem_append.1 ho with h | h
    · exact hf.lt o h
    · rw [List.mem_singleton] at h; subst h
      have := targetPos_lt ds
      show m + targetPos ds < n
      omega
  · intro v y hy
    show tnCat.interp.run (f.layers ++ _) v y = _
    rw [tnCat.interp.run_append, runOps_append]
    show tnCat.interp.act _ _ y = applied _ _ _ _ y
    rw [nest_layer hg.toOneQubit ds h eA _ _ _ y (by rw [qubits_length, qubits_length, hn]; exact hy), qubits_length]
    have : gateAmp g = amp A := by simp only [gateAmp, eA]
    rw [this]
    exact applied_congr _ _ _ (fun z hz => hf.run v z hz) hy

/-- `then_at` of a controlled gate. -/
theorem Imp.thenAt {n : Nat} {f : Circ} {a : List Op} (hf : Imp n f a) {g : QBox} (hg : Gate1 g) (ds : List Int) (h : ∀ d ∈ ds, d ≠ 0) (m : Nat)
    (hm : m + width ds ≤ n) :
    ∃ c, thenAt f (ofBox (nest g ds)) (m : Int) = .ok c ∧ Imp n c (a ++ [⟨(controlPos ds).map (m + ·), m + targetPos ds, g⟩]) := by
  obtain ⟨t1, t2⟩ := nest_type hg.toOneQubit ds
  have hl : ∀ k, (qubits k).length = k := qubits_length
  have hsplit : f.cod = qubits m ++ qubits (width ds) ++ qubits (n - (m + width ds)) := by
    rw [hf.cod, qubits_add, qubits_add]; congr 1; omega
  have e1 : f.cod.take m = qubits m := by rw [hsplit, List.append_assoc]; exact List.take_left' (hl m)
  have e2 : f.cod.drop (m + (ofBox (nest g ds)).dom.length) = qubits (n - (m + width ds)) := by
    have : (ofBox (nest g ds) : Diagram QOb QBox).dom.length = width ds := by show (nest g ds).dom.length = _; rw [t1, hl]
    rw [this, hsplit]; exact List.drop_left' (by simp [hl])
  have hok := (thenAt_ok_iff (f := f) (g := ofBox (nest g ds)) (i := m) (r := _)).2 ⟨by
    rw [e1, e2]; show _ = qubits m ++ (nest g ds).dom ++ _; rw [t1]; exact hsplit, rfl⟩
  rw [e1, e2] at hok
  have hcod : qubits m ++ (ofBox (nest g ds)).cod ++ qubits (n - (m + width ds)) = f.cod := by
    rw [hsplit]; show qubits m ++ (nest g ds).cod ++ _ = _; rw [t2]
  have hlay : (ofBox (nest g ds)).layers.map (Layer.extend (qubits m) (qubits (n - (m + width ds)))) =
      [(⟨qubits m, nest g ds, qubits (n - (m + width ds))⟩ : Layer QOb QBox)] := by simp [ofBox, Layer.extend]
  rw [hcod, hlay] at hok
  exact ⟨_, hok, hf.snoc hg ds h m _ (by omega)⟩

/-- `apply_gate` of a controlled one-qubit gate. -/
theorem Imp.ctrl {n : Nat} {f : Circ} {a : List Op} (hf : Imp n f a) {g : QBox} (hg : Gate1 g) (hgc : ∀ u k, g ≠ controlled u k) (k : Int)
    (p q : Nat) (hp : p < n) (hq : q < n) (hne : p ≠ q) :
    ∃ c, applyGate f (controlled g k) [(p : Int), (q : Int)] = .ok c ∧ Imp n c (a ++ [⟨[p], q, g⟩]) := by
  have happ : applyGate f (controlled g k) [(p : Int), (q : Int)] = match mkControlled g ((q : Int) - p) with
      | .error e => .error e
      | .ok g' => Diagram.thenAt f (ofBox g') (min (p : Int) q) := by
    cases g <;> first | rfl | exact absurd rfl (hgc _ _)
  have hnz : (q : Int) - p ≠ 0 := by omega
  rw [happ, mkControlled, if_neg hnz]
  have hmin : min (p : Int) q = ((min p q : Nat) : Int) := by omega
  obtain ⟨c, h1, h2⟩ := hf.thenAt hg [(q : Int) - p] (by simpa using hnz) (min p q) (by simp only [width]; omega)
  refine ⟨c, by rw [hmin]; exact h1, ?_⟩
  have e : (⟨(controlPos [(q : Int) - p]).map (min p q + ·), min p q + targetPos [(q : Int) - p], g⟩ : Op) = ⟨[p], q, g⟩ := by
    simp only [controlPos, targetPos, width, List.map_cons, List.map_nil]
    by_cases hlt : p < q
    · rw [if_pos (by omega), show min p q + 0 = p by omega, show min p q + (((q : Int) - p).toNat + 0) = q by omega]
    · rw [if_neg (by omega), show min p q + (1 + ((q : Int) - p).natAbs - 1) = p by omega, show min p q + (((q : Int) - p).toNat + 0) = q by omega]
  rwa [e] at h2

/-- `apply_gate` of a one-qubit gate. -/
theorem Imp.plain {n : Nat} {f : Circ} {a : List Op} (hf : Imp n f a) {g : QBox} (hg : Gate1 g) (hgc : ∀ u k, g ≠ controlled u k)
    (q : Nat) (hq : q < n) : ∃ c, applyGate f g [(q : Int)] = .ok c ∧ Imp n c (a ++ [⟨[], q, g⟩]) := by
  have happ : applyGate f g [(q : Int)] = Diagram.thenAt f (ofBox g) (q : Int) := by
    have hl : g.dom.length = 1 := by rw [hg.dom]; rfl
    cases g <;> first | exact absurd rfl (hgc _ _) | simp [applyGate, hl, pyMin]
  obtain ⟨c, h1, h2⟩ := hf.thenAt hg [] (by simp) q (by simp only [width]; omega)
  exact ⟨c, happ ▸ h1, by simpa [controlPos, targetPos] using h2⟩

/-- The layers of a row of gates between `k` and `m` other qubits. -/
def rowLayers (k m : Nat) : List QBox → List (Layer QOb QBox)
  | [] => []
  | g :: gs => ⟨qubits k, g, qubits (gs.length + m)⟩ :: rowLayers (k + 1) m gs

theorem rowLayers_extend (k m : Nat) (gs : List QBox) (j : Nat) :
    (rowLayers k m gs).map (Layer.extend (qubits j) []) = rowLayers (j + k) m gs := by
  induction gs generalizing k with
  | nil => rfl
  | cons g gs ih => simp only [rowLayers, List.map_cons, ih, Layer.extend, qubits_add, List.append_nil]; rfl

theorem tensorRow_eq (gs : List QBox) (h : ∀ g ∈ gs, g.dom = [.qubit] ∧ g.cod = [.qubit]) :
    tensorRow gs = ⟨qubits gs.length, qubits gs.length, rowLayers 0 0 gs⟩ := by
  rw [tensorRow, tensorN_eq_foldr, List.foldr_cons, tensor_id_nil_left]
  induction gs with
  | nil => rfl
  | cons g gs ih =>
    obtain ⟨h1, h2⟩ := h g (by simp)
    have e1 : (ofBox g : Circ).dom = [.qubit] := h1
    have e2 : (ofBox g : Circ).cod = [.qubit] := h2
    rw [List.map_cons, List.foldr_cons, ih (fun g hg => h g (List.mem_cons_of_mem _ hg)), tensor_eq, e1, e2]
    have hq : ∀ k, [QOb.qubit] ++ qubits k = qubits (k + 1) := fun k => rfl
    have e3 : [QOb.qubit] = qubits 1 := rfl
    have hl : (ofBox g : Circ).layers.map (Layer.extend [] (qubits gs.length)) = [⟨qubits 0, g, qubits (gs.length + 0)⟩] := by
      simp [ofBox, Layer.extend, qubits]
    simp only [hq, hl, List.length_cons]
    rw [e3, rowLayers_extend]; rfl

/-- A row of one-qubit gates. -/
theorem Imp.row (gs : List QBox) (h : ∀ g ∈ gs, Gate1 g) :
    Imp gs.length (tensorRow gs) ((List.range gs.length).map (fun q => ⟨[], q, gs.getD q H⟩)) := by
  rw [tensorRow_eq gs (fun g hg => ⟨(h g hg).dom, (h g hg).cod⟩)]
  -- process the gates one by one
  have key : ∀ (gs : List QBox), (∀ g ∈ gs, Gate1 g) → ∀ (n k : Nat) (f : Circ) (a : List Op), k + gs.length = n → Imp n f a →
      Imp n ⟨f.dom, f.cod, f.layers ++ rowLayers k 0 gs⟩ (a ++ (List.range gs.length).map (fun q => ⟨[], k + q, gs.getD q H⟩)) := by
    intro gs
    induction gs with
    | nil =>
      intro _ n k f a _ hf
      simpa [rowLayers] using hf
    | cons g gs ih =>
      intro hg n k f a hk hf
      simp only [List.length_cons] at hk
      have h1 := hf.snoc (hg g (by simp)) [] (by simp) k (gs.length + 0) (by simp only [width]; omega)
      have h2 := ih (fun g h => hg g (List.mem_cons_of_mem _ h)) n (k + 1) _ _ (by omega) h1
      simp only [List.append_assoc] at h2
      have e : (List.range (g :: gs).length).map (fun q => (⟨[], k + q, (g :: gs).getD q H⟩ : Op)) =
          [⟨(controlPos []).map (k + ·), k + targetPos [], g⟩] ++ (List.range gs.length).map (fun q => ⟨[], k + 1 + q, gs.getD q H⟩) := by
        rw [List.length_cons, List.range_succ_eq_map, List.map_cons, List.map_map]
        simp [controlPos, targetPos, Function.comp_def, Nat.add_assoc, Nat.add_comm 1]
      rw [e]
      exact h2
  have := key gs h gs.length 0 _ _ (by omega) (Imp.id gs.length)
  simpa [Diagram.id] using this

/-- A row of rotations. -/
theorem Imp.rotRow (ax : Axis) (n : Nat) (p : Nat → ℝ) : Imp n (tensorRow (((List.range n).map p).map (rot ax))) (rotRow ax n p) := by
  have h := Imp.row (((List.range n).map p).map (rot ax)) (by
    intro g hg
    obtain ⟨θ, _, rfl⟩ := List.mem_map.1 hg
    exact ⟨oneQubit_gates.2.2.2.2.2.2 ax θ, rfl, trivial, trivial⟩)
  simp only [List.length_map, List.length_range] at h
  have e : (List.range n).map (fun q => (⟨[], q, (((List.range n).map p).map (rot ax)).getD q H⟩ : Op)) = QBox.rotRow ax n p := by
    unfold QBox.rotRow
    refine List.map_congr_left (fun q hq => ?_)
    rw [List.mem_range] at hq
    simp [List.getD_eq_getElem?_getD, hq]
  rwa [e] at h

theorem Imp.hRow (n : Nat) : Imp n (tensorRow (List.replicate n H)) (hRow n) := by
  have h := Imp.row (List.replicate n H) (by
    intro g hg
    rw [List.eq_of_mem_replicate hg]; exact ⟨oneQubit_gates.1, rfl, adj_gates.1, conj_gates.1⟩)
  simp only [List.length_replicate] at h
  have e : (List.range n).map (fun q => (⟨[], q, (List.replicate n H).getD q H⟩ : Op)) = QBox.hRow n := by
    unfold QBox.hRow
    refine List.map_congr_left (fun q hq => ?_)
    rw [List.mem_range] at hq
    simp [List.getD_eq_getElem?_getD, hq]
  rwa [e] at h

/-- A loop whose body adds gates. -/
theorem Imp.loop {α : Type} {n : Nat} (L : List α) (step : Circ → α → Except PyErr Circ) (φ : α → List Op)
    (h : ∀ x ∈ L, ∀ f a, Imp n f a → ∃ c, step f x = .ok c ∧ Imp n c (a ++ φ x)) {f : Circ} {a : List Op} (hf : Imp n f a) :
    ∃ c, L.foldlM step f = .ok c ∧ Imp n c (a ++ L.flatMap φ) := by
  induction L generalizing f a with
  | nil => exact ⟨f, rfl, by simpa using hf⟩
  | cons x L ih =>
    obtain ⟨c, h1, h2⟩ := h x (by simp) f a hf
    obtain ⟨c', h3, h4⟩ := ih (fun y hy => h y (List.mem_cons_of_mem _ hy)) h2
    refine ⟨c', ?_, by simpa [List.append_assoc] using h4⟩
    rw [List.foldlM_cons, h1]
    exact h3

theorem reshapeRows_eq (nl k : Nat) (p : Nat → ℝ) :
    reshapeRows nl k ((List.range (nl * k)).map p) = (List.range nl).map (fun l => (List.range k).map (fun i => p (l * k + i))) := by
  unfold reshapeRows
  refine List.map_congr_left (fun l hl => ?_)
  rw [List.mem_range] at hl
  have hle : (l + 1) * k ≤ nl * k := Nat.mul_le_mul_right k hl
  rw [Nat.add_mul, Nat.one_mul] at hle
  rw [← List.map_drop, ← List.map_take]
  apply List.ext_getElem
  · simp; omega
  · intro i h1 h2
    simp

theorem pyGet_ofNat_getD (l : List Int) {i : Nat} (h : i < l.length) : pyGet l (i : Int) = .ok (l.getD i 0) := by
  have h0 : ¬ ((i : Int) < 0) := by omega
  simp [pyGet, h0, h, List.getD_eq_getElem?_getD]

theorem pyGet_map_range {α : Type} (k : Nat) (f : Nat → α) {i : Nat} (h : i < k) : pyGet ((List.range k).map f) (i : Int) = .ok (f i) := by
  have h0 : ¬ ((i : Int) < 0) := by omega
  simp [pyGet, h0, h]

theorem pyGet_map_range_neg {α : Type} (k : Nat) (f : Nat → α) {i : Nat} (h0 : 0 < i) (h : i ≤ k) :
    pyGet ((List.range k).map f) (-(i : Int)) = .ok (f (k - i)) := by
  have h1 : (-(i : Int)) < 0 := by omega
  have h2 : ¬ ((k : Int) + -(i : Int) < 0) := by omega
  have h3 : ((k : Int) + -(i : Int)).toNat = k - i := by omega
  simp only [pyGet, h1, if_true, List.length_map, List.length_range, h2, if_false, h3]
  simp [show k - i < k by omega]

theorem slice_map_range {α : Type} (k : Nat) (f : Nat → α) {a b : Nat} (hab : a ≤ b) (hb : b ≤ k) :
    pySlice ((List.range k).map f) (some (a : Int)) (some (b : Int)) = (List.range (b - a)).map (fun i => f (a + i)) := by
  rw [pySlice_nat_nat, ← List.map_drop, ← List.map_take]
  apply List.ext_getElem
  · simp; omega
  · intro i h1 h2
    simp

theorem slice_map_range_to {α : Type} (k : Nat) (f : Nat → α) {b : Nat} (hb : b ≤ k) :
    pySlice ((List.range k).map f) none (some (b : Int)) = (List.range b).map f := by
  rw [pySlice_nat_to, ← List.map_take]
  apply List.ext_getElem
  · simp; omega
  · intro i h1 h2
    simp

theorem slice_map_range_from {α : Type} (k : Nat) (f : Nat → α) {a : Nat} :
    pySlice ((List.range k).map f) (some (a : Int)) none = (List.range (k - a)).map (fun i => f (a + i)) := by
  rw [pySlice_nat_from, ← List.map_drop]
  apply List.ext_getElem
  · simp
  · intro i h1 h2
    simp

theorem bind_ok {α β : Type} (x : α) (f : α → Except PyErr β) : ((Except.ok x : Except PyErr α) >>= f) = f x := rfl

theorem flatMap_single {α β : Type} (L : List α) (f : α → β) : L.flatMap (fun x => [f x]) = L.map f := by
  induction L with
  | nil => rfl
  | cons x L ih => simp [ih]

theorem rot_ne (ax : Axis) (θ : ℝ) : ∀ u k, rot ax θ ≠ controlled u k := fun _ _ h => by cases h
theorem one_rot (ax : Axis) (θ : ℝ) : Gate1 (rot ax θ) := ⟨oneQubit_gates.2.2.2.2.2.2 ax θ, rfl, trivial, trivial⟩
theorem one_X : Gate1 X := ⟨oneQubit_gates.2.2.2.1, rfl, adj_gates.2.2.2.1, conj_gates.2.2.2.1⟩
theorem one_Z : Gate1 Z := ⟨oneQubit_gates.2.2.2.2.2.1, rfl, adj_gates.2.2.2.2.2.1, conj_gates.2.2.2.2.2.1⟩
theorem X_ne : ∀ u k, X ≠ controlled u k := fun _ _ h => by cases h
theorem Z_ne : ∀ u k, Z ≠ controlled u k := fun _ _ h => by cases h

/-- The ring of controlled gates `i → i - 1`. -/
theorem prev_cast {n i : Nat} (hi : i < n) : ((i : Int) - 1) % n = (((i + n - 1) % n : Nat) : Int) := by
  rw [Int.natCast_emod]
  rw [show ((i + n - 1 : Nat) : Int) = ((i : Int) - 1) + n by omega, Int.add_emod_right]

theorem natmod_cast (n i : Nat) : (i : Int) % n = ((i % n : Nat) : Int) := (Int.natCast_emod i n).symm

theorem prev_ne {n i : Nat} (hn : 2 ≤ n) (hi : i < n) : i ≠ (i + n - 1) % n := by
  rcases Nat.eq_zero_or_pos i with rfl | h
  · rw [Nat.zero_add, Nat.mod_eq_of_lt (by omega)]; omega
  · rw [show i + n - 1 = (i - 1) + n by omega, Nat.add_mod_right, Nat.mod_eq_of_lt (by omega)]; omega

theorem next_ne {n i : Nat} (hn : 2 ≤ n) : i % n ≠ (i + 1) % n := by
  intro h
  have h1 := Nat.mod_lt i (show 0 < n by omega)
  have h2 : (i + 1) % n = (i % n + 1) % n := by rw [Nat.add_mod]; simp [Nat.mod_eq_of_lt (show 1 < n by omega)]
  rw [h2] at h
  rcases Nat.lt_or_ge (i % n + 1) n with h3 | h3
  · rw [Nat.mod_eq_of_lt h3] at h; omega
  · rw [show i % n + 1 = n by omega, Nat.mod_self] at h; omega

/-- A ladder `i → i + 1` with `apply_gate`. -/
theorem Imp.ladder {n : Nat} (g : Nat → QBox) (hg : ∀ i, Gate1 (g i)) (hgc : ∀ i u k, g i ≠ controlled u k) {f : Circ} {a : List Op} (hf : Imp n f a)
    (step : Circ → Nat → Except PyErr Circ) (hs : ∀ f i, i < n - 1 → step f i = applyGate f (controlled (g i) 1) [(i : Int), (i : Int) + 1]) :
    ∃ c, (List.range (n - 1)).foldlM step f = .ok c ∧ Imp n c (a ++ (List.range (n - 1)).map (fun i => ⟨[i], i + 1, g i⟩)) := by
  rw [← flatMap_single]
  refine Imp.loop _ _ _ (fun i hi f a hf => ?_) hf
  rw [List.mem_range] at hi
  rw [hs f i hi, show ((i : Int) + 1) = ((i + 1 : Nat) : Int) by omega]
  exact hf.ctrl (hg i) (hgc i) 1 i (i + 1) (by omega) (by omega) (by omega)

/-- A ring `i → i - 1`. -/
theorem Imp.ringDown {n : Nat} (hn : 2 ≤ n) (g : Nat → QBox) (hg : ∀ i, Gate1 (g i)) (hgc : ∀ i u k, g i ≠ controlled u k) {f : Circ} {a : List Op}
    (hf : Imp n f a) (step : Circ → Nat → Except PyErr Circ)
    (hs : ∀ f i, i < n → step f i = applyGate f (controlled (g i) 1) [(i : Int), ((i : Int) - 1) % n]) :
    ∃ c, (List.range n).foldlM step f = .ok c ∧ Imp n c (a ++ (List.range n).map (fun i => ⟨[i], (i + n - 1) % n, g i⟩)) := by
  rw [← flatMap_single]
  refine Imp.loop _ _ _ (fun i hi f a hf => ?_) hf
  rw [List.mem_range] at hi
  rw [hs f i hi, prev_cast hi]
  exact hf.ctrl (hg i) (hgc i) 1 i _ hi (Nat.mod_lt _ (by omega)) (prev_ne hn hi)

/-- A ring `i → i + 1`, from the last qubit down. -/
theorem Imp.ringUp {n : Nat} (hn : 2 ≤ n) (g : Nat → QBox) (hg : ∀ i, Gate1 (g i)) (hgc : ∀ i u k, g i ≠ controlled u k) {f : Circ} {a : List Op}
    (hf : Imp n f a) (step : Circ → Nat → Except PyErr Circ)
    (hs : ∀ f k, k < n → step f (n - k) = applyGate f (controlled (g k) 1) [((n - k : Nat) : Int) % n, (((n - k : Nat) : Int) + 1) % n]) :
    ∃ c, ((List.range n).map (n - ·)).foldlM step f = .ok c ∧
      Imp n c (a ++ (List.range n).map (fun k => ⟨[(n - k) % n], (n - k + 1) % n, g k⟩)) := by
  rw [List.foldlM_map, ← flatMap_single (List.range n) (fun k => (⟨[(n - k) % n], (n - k + 1) % n, g k⟩ : Op))]
  refine Imp.loop _ _ _ (fun k hk f a hf => ?_) hf
  rw [List.mem_range] at hk
  rw [hs f k hk, show (((n - k : Nat) : Int) + 1) = ((n - k + 1 : Nat) : Int) by omega, natmod_cast, natmod_cast]
  exact hf.ctrl (hg k) (hgc k) 1 _ _ (Nat.mod_lt _ (by omega)) (Nat.mod_lt _ (by omega)) (next_ne hn)

/-- The rows of parameters. -/
def rowsOf (nl k : Nat) (p : Nat → ℝ) : List (List ℝ) := (List.range nl).map (fun l => (List.range k).map (fun i => p (l * k + i)))

/-- The main loop over the rows. -/
theorem Imp.rows {n : Nat} (nl k : Nat) (p : Nat → ℝ) (step : Circ → List ℝ → Except PyErr Circ) (φ : (Nat → ℝ) → List Op)
    (h : ∀ (q : Nat → ℝ) f a, Imp n f a → ∃ c, step f ((List.range k).map q) = .ok c ∧ Imp n c (a ++ φ q)) :
    ∃ c, (rowsOf nl k p).foldlM step (Diagram.id (qubits n)) = .ok c ∧
      Imp n c ((List.range nl).flatMap (fun l => φ (fun i => p (l * k + i)))) := by
  rw [rowsOf, List.foldlM_map]
  have := Imp.loop (List.range nl) (fun f l => step f ((List.range k).map (fun i => p (l * k + i)))) (fun l => φ (fun i => p (l * k + i)))
    (fun l _ f a hf => h _ f a hf) (Imp.id n)
  simpa using this

theorem sim4_imp {n : Nat} (hn : 2 ≤ n) (nl : Nat) (p : Nat → ℝ) :
    ∃ c, sim4Circuit n (rowsOf nl (3 * n - 1) p) = .ok c ∧ Imp n c (AnsatzKind.sim4.spec nl n p) := by
  have := Imp.rows (n := n) nl (3 * n - 1) p (sim4Layer n) (fun q => AnsatzKind.sim4.layerSpec n 0 q) (fun q f a hf => by
    unfold sim4Layer
    rw [slice_map_range_to _ _ (by omega), slice_map_range _ _ (by omega) (by omega), show 2 * n - n = n by omega]
    obtain ⟨c1, e1, h1⟩ := hf.comp (Imp.rotRow .x n q)
    obtain ⟨c2, e2, h2⟩ := h1.comp (Imp.rotRow .z n (fun i => q (n + i)))
    obtain ⟨c3, e3, h3⟩ := Imp.ladder (n := n) (fun i => rot .x (q (2 * n + i))) (fun _ => one_rot _ _) (fun _ => rot_ne _ _) (Imp.id n)
      (fun s (i : Nat) => do
        let θ ← pyGet ((List.range (3 * n - 1)).map q) (2 * n + i : Nat)
        applyGate s (controlled (rot .x θ) 1) [(i : Int), (i : Int) + 1]) (fun f i hi => by rw [pyGet_map_range _ _ (by omega), bind_ok])
    obtain ⟨c4, e4, h4⟩ := h2.comp h3
    refine ⟨c4, ?_, ?_⟩
    · rw [e1, bind_ok, e2, bind_ok, e3, bind_ok, e4]
    · simpa only [AnsatzKind.layerSpec, List.append_assoc, List.nil_append] using h4)
  simp only [AnsatzKind.spec, List.append_nil]
  exact this

theorem sim9_imp {n : Nat} (g : QBox) (hg : Gate1 g) (hgc : ∀ u k, g ≠ controlled u k) (nl : Nat) (p : Nat → ℝ) :
    ∃ c, sim9Circuit (controlled g 1) n (rowsOf nl n p) = .ok c ∧ Imp n c ((List.range nl).flatMap (fun l =>
      hRow n ++ (List.range (n - 1)).map (fun i => ⟨[i], i + 1, g⟩) ++ rotRow .x n (fun i => p (l * n + i)))) := by
  refine Imp.rows (n := n) nl n p (sim9Layer (controlled g 1) n) (fun q => hRow n ++ (List.range (n - 1)).map (fun i => ⟨[i], i + 1, g⟩) ++ rotRow .x n q) (fun q f a hf => ?_)
  obtain ⟨c1, e1, h1⟩ := hf.comp (Imp.hRow n)
  obtain ⟨c3, e3, h3⟩ := Imp.ladder (n := n) (fun _ => g) (fun _ => hg) (fun _ => hgc) (Imp.id n)
      (fun s (q : Nat) => applyGate s (controlled g 1) [(q : Int), (q : Int) + 1]) (fun f i hi => rfl)
  obtain ⟨c4, e4, h4⟩ := h1.comp h3
  obtain ⟨c5, e5, h5⟩ := h4.comp (Imp.rotRow .x n q)
  refine ⟨c5, ?_, ?_⟩
  · unfold sim9Layer
    rw [e1, bind_ok, e3, bind_ok, e4, bind_ok, e5]
  · simpa only [List.append_assoc, List.nil_append] using h5

theorem sim15_imp {n : Nat} (hn : 2 ≤ n) (nl : Nat) (p : Nat → ℝ) :
    ∃ c, sim15Circuit n (rowsOf nl (2 * n) p) = .ok c ∧ Imp n c (AnsatzKind.sim15.spec nl n p) := by
  have := Imp.rows (n := n) nl (2 * n) p (sim15Layer n) (fun q => AnsatzKind.sim15.layerSpec n 0 q) (fun q f a hf => by
    unfold sim15Layer
    rw [slice_map_range_to _ _ (by omega), slice_map_range_from, show 2 * n - n = n by omega]
    obtain ⟨c1, e1, h1⟩ := Imp.ringDown hn (fun _ => X) (fun _ => one_X) (fun _ => X_ne) (Imp.rotRow .y n q)
      (fun s (i : Nat) => applyGate s CX [(i : Int), ((i : Int) - 1) % n]) (fun _ _ _ => rfl)
    obtain ⟨c2, e2, h2⟩ := Imp.ringUp hn (fun _ => X) (fun _ => one_X) (fun _ => X_ne) (Imp.rotRow .y n (fun i => q (n + i)))
      (fun s (i : Nat) => applyGate s CX [(i : Int) % n, ((i : Int) + 1) % n]) (fun _ _ _ => rfl)
    obtain ⟨c3, e3, h3⟩ := h1.comp h2
    obtain ⟨c4, e4, h4⟩ := hf.comp h3
    refine ⟨c4, ?_, ?_⟩
    · rw [e1, bind_ok, e2, bind_ok, e3, bind_ok, e4]
    · simpa only [AnsatzKind.layerSpec, List.append_assoc, List.nil_append] using h4)
  simp only [AnsatzKind.spec, List.append_nil]
  exact this

theorem sim14_imp {n : Nat} (hn : 2 ≤ n) (nl : Nat) (p : Nat → ℝ) :
    ∃ c, sim14Circuit n (rowsOf nl (4 * n) p) = .ok c ∧ Imp n c (AnsatzKind.sim14.spec nl n p) := by
  have := Imp.rows (n := n) nl (4 * n) p (sim14Layer n) (fun q => AnsatzKind.sim14.layerSpec n 0 q) (fun q f a hf => by
    unfold sim14Layer
    rw [slice_map_range_to _ _ (by omega), slice_map_range _ _ (by omega) (by omega), show 3 * n - 2 * n = n by omega]
    obtain ⟨c1, e1, h1⟩ := Imp.ringDown hn (fun i => rot .x (q (n + i))) (fun _ => one_rot _ _) (fun _ => rot_ne _ _) (Imp.rotRow .y n q)
      (fun s (i : Nat) => do
        let θ ← pyGet ((List.range (4 * n)).map q) (n + i : Nat)
        applyGate s (controlled (rot .x θ) 1) [(i : Int), ((i : Int) - 1) % n])
      (fun f i hi => by rw [pyGet_map_range _ _ (by omega), bind_ok])
    obtain ⟨c2, e2, h2⟩ := Imp.ringUp hn (fun k => rot .x (q (3 * n + k))) (fun _ => one_rot _ _) (fun _ => rot_ne _ _)
      (Imp.rotRow .y n (fun i => q (2 * n + i)))
      (fun s (i : Nat) => do
        let θ ← pyGet ((List.range (4 * n)).map q) (-(i : Int))
        applyGate s (controlled (rot .x θ) 1) [(i : Int) % n, ((i : Int) + 1) % n])
      (fun f k hk => by rw [pyGet_map_range_neg _ _ (by omega) (by omega), bind_ok, show 4 * n - (n - k) = 3 * n + k by omega])
    obtain ⟨c3, e3, h3⟩ := h1.comp h2
    obtain ⟨c4, e4, h4⟩ := hf.comp h3
    refine ⟨c4, ?_, ?_⟩
    · rw [e1, bind_ok, e2, bind_ok, e3, bind_ok, e4]
    · simpa only [AnsatzKind.layerSpec, List.append_assoc, List.nil_append] using h4)
  simp only [AnsatzKind.spec, List.append_nil]
  exact this

theorem mapM_ok {α β : Type} (L : List α) (f : α → Except PyErr β) (g : α → β) (h : ∀ x ∈ L, f x = .ok (g x)) : L.mapM f = .ok (L.map g) := by
  induction L with
  | nil => rfl
  | cons x L ih =>
    rw [List.mapM_cons, h x (by simp), bind_ok, ih (fun y hy => h y (List.mem_cons_of_mem _ hy)), bind_ok]; rfl

theorem thenN_foldlM (f : Circ) (ds : List Circ) : thenN f ds = ds.foldlM andThen f := by
  induction ds generalizing f with
  | nil => rfl
  | cons d ds ih =>
    rw [thenN_cons, List.foldlM_cons]
    cases h : andThen f d with
    | error e => rfl
    | ok r => exact ih r

theorem iqp_imp {n : Nat} (hn : 2 ≤ n) (nl : Nat) (p : Nat → ℝ) :
    ∃ c, iqpCircuit nl n (rowsOf nl (n - 1) p) = .ok c ∧ Imp n c (AnsatzKind.iqp.spec nl n p) := by
  obtain ⟨c, e, h⟩ := Imp.rows (n := n) nl (n - 1) p (iqpLayer n) (fun q => AnsatzKind.iqp.layerSpec n 0 q) (fun q f a hf => by
    unfold iqpLayer
    rw [mapM_ok _ _ (fun (i : Nat) => tensor (tensor (Diagram.id (qubits i)) (ofBox (controlled (rot .z (q i)) 1))) (Diagram.id (qubits (n - 2 - i))))
      (fun i hi => by rw [List.mem_range] at hi; rw [pyGet_map_range _ _ hi, bind_ok]), bind_ok, thenN_foldlM, List.foldlM_map]
    obtain ⟨c1, e1, h1⟩ := Imp.loop (n := n) (List.range (n - 1)) (fun (f : Circ) (i : Nat) => andThen f
        (tensor (tensor (Diagram.id (qubits i)) (ofBox (controlled (rot .z (q i)) 1))) (Diagram.id (qubits (n - 2 - i)))))
        (fun i => [⟨[i], i + 1, rot .z (q i)⟩]) (fun i hi f a hf => by
      rw [List.mem_range] at hi
      have hs := (Imp.id n).snoc (one_rot .z (q i)) [1] (by simp) i (n - 2 - i) (by simp only [width]; omega)
      obtain ⟨c, e, h⟩ := hf.comp hs
      refine ⟨c, ?_, by simpa [controlPos, targetPos] using h⟩
      rw [← e]
      congr 1
      rw [tensor_eq, tensor_eq]
      have e1 : (ofBox (controlled (rot .z (q i)) 1) : Circ).dom = qubits 2 := rfl
      have e2 : (ofBox (controlled (rot .z (q i)) 1) : Circ).cod = qubits 2 := rfl
      simp only [Diagram.id, e1, e2, qubits_add, show i + 2 + (n - 2 - i) = n by omega]
      simp [ofBox, Layer.extend, nest]) (Imp.id n)
    obtain ⟨c2, e2, h2⟩ := (Imp.hRow n).comp h1
    obtain ⟨c3, e3, h3⟩ := hf.comp h2
    refine ⟨c3, ?_, ?_⟩
    · rw [e1, bind_ok, e2, bind_ok, e3]
    · simpa only [AnsatzKind.layerSpec, flatMap_single, List.append_assoc, List.nil_append] using h3)
  unfold iqpCircuit
  rw [e, bind_ok]
  simp only [AnsatzKind.spec]
  by_cases h0 : nl > 0
  · rw [if_pos h0, if_pos h0]
    exact h.comp (Imp.hRow n)
  · rw [if_neg h0, if_neg h0, List.append_nil]
    exact ⟨c, rfl, h⟩

/-- The ranges that `StronglyEntanglingAnsatz` can use on `n` qubits. -/
def RangesOK (ranges : Option (List Int)) (nl n : Nat) : Prop :=
  ∀ rs, ranges = some rs → rs.length = nl ∧ ∀ r ∈ rs, r < n ∧ ¬ (n : Int) ∣ r

theorem step_ne {n q : Nat} {s : Int} (hs : ¬ (n : Int) ∣ s) (hn : 0 < n) : q ≠ (((q : Int) + s) % n).toNat := by
  intro h
  apply hs
  have h0 := Int.emod_nonneg ((q : Int) + s) (show (n : Int) ≠ 0 by omega)
  have h1 := Int.emod_add_mul_ediv ((q : Int) + s) n
  refine ⟨((q : Int) + s) / n, ?_⟩
  omega

theorem strongStep_ok {ranges : Option (List Int)} {nl n : Nat} (hn : 2 ≤ n) (h : RangesOK ranges nl n) {layer : Nat} (hl : layer < nl) :
    ∃ s, strongStep ranges n layer = .ok s ∧ ¬ (n : Int) ∣ s ∧ s = rangeOf ranges n layer := by
  cases ranges with
  | none =>
    refine ⟨(layer : Int) % ((n : Int) - 1) + 1, ?_, ?_, rfl⟩
    · simp only [strongStep]; rw [if_neg (by omega)]
    · have h0 := Int.emod_nonneg (layer : Int) (show (n : Int) - 1 ≠ 0 by omega)
      have h1 := Int.emod_lt_of_pos (layer : Int) (show 0 < (n : Int) - 1 by omega)
      intro hd
      have := Int.le_of_dvd (by omega) hd
      omega
  | some rs =>
    obtain ⟨h1, h2⟩ := h rs rfl
    have hlt : layer < rs.length := by omega
    have hg : pyGet rs (layer : Int) = .ok rs[layer] := by
      have h0 : ¬ ((layer : Int) < 0) := by omega
      simp [pyGet, h0, hlt]
    obtain ⟨h3, h4⟩ := h2 rs[layer] (List.getElem_mem hlt)
    refine ⟨rs[layer], ?_, h4, ?_⟩
    · simp only [strongStep]
      rw [hg, bind_ok, if_neg (by omega)]
    · simp [rangeOf, List.getD_eq_getElem?_getD, hlt]

theorem strongRots_imp {n nl l j : Nat} (hl : l < nl) (hj : j < n) (p : Nat → ℝ) {f : Circ} {a : List Op} (hf : Imp n f a) :
    ∃ c, strongRots (rowsOf nl (3 * n) p) l f j = .ok c ∧ Imp n c (a ++
      [⟨[], j, rot .z (p (l * (3 * n) + 3 * j))⟩, ⟨[], j, rot .y (p (l * (3 * n) + (3 * j + 1)))⟩, ⟨[], j, rot .z (p (l * (3 * n) + (3 * j + 2)))⟩]) := by
  obtain ⟨f1, i1, g1⟩ := hf.plain (one_rot .z (p (l * (3 * n) + 3 * j))) (rot_ne _ _) j hj
  obtain ⟨f2, i2, g2⟩ := g1.plain (one_rot .y (p (l * (3 * n) + (3 * j + 1)))) (rot_ne _ _) j hj
  obtain ⟨f3, i3, g3⟩ := g2.plain (one_rot .z (p (l * (3 * n) + (3 * j + 2)))) (rot_ne _ _) j hj
  refine ⟨f3, ?_, by simpa [List.append_assoc] using g3⟩
  unfold strongRots
  rw [rowsOf, pyGet_map_range _ _ hl, bind_ok, slice_map_range _ _ (by omega) (by omega), show j * 3 + 3 - j * 3 = 3 by omega]
  have k0 := pyGet_map_range 3 (fun i => p (l * (3 * n) + (j * 3 + i))) (show 0 < 3 by omega)
  have k1 := pyGet_map_range 3 (fun i => p (l * (3 * n) + (j * 3 + i))) (show 1 < 3 by omega)
  have k2 := pyGet_map_range 3 (fun i => p (l * (3 * n) + (j * 3 + i))) (show 2 < 3 by omega)
  simp only [Nat.cast_zero, Nat.cast_one, Nat.cast_ofNat, Nat.mul_comm j 3, Nat.add_zero] at k0 k1 k2 ⊢
  rw [k0, bind_ok, k1, bind_ok, k2, bind_ok, i1, bind_ok, i2, bind_ok, i3]

theorem strongRows_imp {n nl l : Nat} (hl : l < nl) (p : Nat → ℝ) {f : Circ} {a : List Op} (hf : Imp n f a) :
    ∃ c, (List.range n).foldlM (strongRots (rowsOf nl (3 * n) p) l) f = .ok c ∧ Imp n c (a ++ (List.range n).flatMap (fun j =>
      [⟨[], j, rot .z (p (l * (3 * n) + 3 * j))⟩, ⟨[], j, rot .y (p (l * (3 * n) + (3 * j + 1)))⟩, ⟨[], j, rot .z (p (l * (3 * n) + (3 * j + 2)))⟩])) :=
  Imp.loop (n := n) (List.range n) (strongRots (rowsOf nl (3 * n) p) l) _ (fun _ hj _ _ hf => strongRots_imp hl (List.mem_range.1 hj) p hf) hf

theorem strongLayer_imp {n : Nat} (hn : 2 ≤ n) {ranges : Option (List Int)} {nl l : Nat} (hl : l < nl) (p : Nat → ℝ) {s : Int}
    (es : strongStep ranges n l = .ok s) (hs : ¬ (n : Int) ∣ s) (hsv : s = rangeOf ranges n l) {f : Circ} {a : List Op} (hf : Imp n f a) :
    ∃ c, strongLayer ranges n (rowsOf nl (3 * n) p) f l = .ok c ∧ Imp n c (a ++ (AnsatzKind.strong ranges).layerSpec n l (fun i => p (l * (3 * n) + i))) := by
  obtain ⟨c1, e1, h1⟩ := strongRows_imp hl p hf
  obtain ⟨c2, e2, h2⟩ := Imp.loop (n := n) (List.range n) (fun (c : Circ) (j : Nat) => applyGate c CX [(j : Int), ((j : Int) + s) % n])
    (fun q => [⟨[q], (((q : Int) + s) % n).toNat, X⟩]) (fun j hj f a hf => by
      rw [List.mem_range] at hj
      have hz := Int.emod_nonneg ((j : Int) + s) (show (n : Int) ≠ 0 by omega)
      have hlt := Int.emod_lt_of_pos ((j : Int) + s) (show (0 : Int) < n by omega)
      obtain ⟨c, e, h⟩ := hf.ctrl one_X X_ne 1 j (((j : Int) + s) % n).toNat hj (by omega) (step_ne hs (by omega))
      rw [Int.toNat_of_nonneg hz] at e
      exact ⟨c, e, h⟩) h1
  refine ⟨c2, ?_, ?_⟩
  · unfold strongLayer
    rw [e1, bind_ok, es, bind_ok, e2]
  · rw [flatMap_single] at h2
    rw [hsv] at h2
    simp only [List.append_assoc] at h2
    exact h2

theorem strong_imp {n : Nat} (hn : 2 ≤ n) (ranges : Option (List Int)) (nl : Nat) (hr : RangesOK ranges nl n) (p : Nat → ℝ) :
    ∃ c, strongCircuit ranges nl n (rowsOf nl (3 * n) p) = .ok c ∧ Imp n c ((AnsatzKind.strong ranges).spec nl n p) := by
  have := Imp.loop (n := n) (List.range nl) (strongLayer ranges n (rowsOf nl (3 * n) p))
    (fun l => (AnsatzKind.strong ranges).layerSpec n l (fun i => p (l * (3 * n) + i))) (fun l hl f a hf => by
    rw [List.mem_range] at hl
    obtain ⟨s, es, hs, hsv⟩ := strongStep_ok hn hr hl
    exact strongLayer_imp hn hl p es hs hsv hf) (Imp.id n)
  simp only [AnsatzKind.spec, List.append_nil]
  exact this

theorem foldlM_append' {α β : Type} (f : β → α → Except PyErr β) (l l' : List α) (b : β) :
    (l ++ l').foldlM f b = (l.foldlM f b >>= fun b' => l'.foldlM f b') := by
  induction l generalizing b with
  | nil => rfl
  | cons a l ih =>
    rw [List.cons_append, List.foldlM_cons, List.foldlM_cons]
    cases f b a with
    | error e => rfl
    | ok b' => exact ih b'

theorem strong_large {n : Nat} (hn : 2 ≤ n) (pre post : List Int) (r : Int) (hpre : ∀ s ∈ pre, s < n ∧ ¬ (n : Int) ∣ s) (hr : r ≥ n) (p : Nat → ℝ) :
    strongCircuit (some (pre ++ r :: post)) (pre ++ r :: post).length n (rowsOf (pre ++ r :: post).length (3 * n) p) = .error .valueError := by
  set rs := pre ++ r :: post with hrs
  have hlen : rs.length = pre.length + (1 + post.length) := by rw [hrs]; simp; omega
  unfold strongCircuit
  rw [show List.range rs.length = List.range pre.length ++ pre.length :: (List.range post.length).map (fun i => pre.length + (1 + i)) by
    rw [hlen, List.range_add, List.range_add]; simp; omega, foldlM_append']
  obtain ⟨c, e, h⟩ := Imp.loop (n := n) (List.range pre.length) (strongLayer (some rs) n (rowsOf rs.length (3 * n) p))
    (fun l => (AnsatzKind.strong (some rs)).layerSpec n l (fun i => p (l * (3 * n) + i))) (fun l hl f a hf => by
    rw [List.mem_range] at hl
    have hg : pyGet rs ((l : Nat) : Int) = .ok (rs.getD l 0) := pyGet_ofNat_getD rs (by omega)
    have hm : rs.getD l 0 ∈ pre := by
      rw [hrs, List.getD_eq_getElem?_getD, List.getElem?_append_left hl, List.getElem?_eq_getElem hl]; exact List.getElem_mem _
    obtain ⟨h1, h2⟩ := hpre _ hm
    refine strongLayer_imp hn (s := rs.getD l 0) (by omega) p ?_ h2 rfl hf
    simp only [strongStep]
    rw [hg, bind_ok, if_neg (by omega)]) (Imp.id n)
  rw [e, bind_ok, List.foldlM_cons]
  have : strongLayer (some rs) n (rowsOf rs.length (3 * n) p) c pre.length = .error .valueError := by
    unfold strongLayer
    obtain ⟨c1, e1, h1⟩ := strongRows_imp (l := pre.length) (nl := rs.length) (by omega) p h
    rw [e1, bind_ok]
    have hg : pyGet rs ((pre.length : Nat) : Int) = .ok (rs.getD pre.length 0) := pyGet_ofNat_getD rs (by omega)
    have hv : rs.getD pre.length 0 = r := by rw [hrs, List.getD_eq_getElem?_getD, List.getElem?_append_right (by omega)]; simp
    have : strongStep (some rs) n pre.length = .error .valueError := by
      simp only [strongStep]
      rw [hg, bind_ok, hv, if_pos hr]
    rw [this]; rfl
  rw [this]; rfl

end
end QBox
end Lambeq
