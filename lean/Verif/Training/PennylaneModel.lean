import Verif.Quantum.PennylaneMixed
import Verif.Training.FastSubs

/-!
# Models of PennyLane circuits (C98)

Models training/pennylane_model.py: `initialise_weights` (138-156), `get_diagram_output` and `forward` (158-217), `from_diagrams` (219-257), and what backend/pennylane.py does with symbols:
`extract_ops_from_circuital` (118-142), `contains_symbols`, `initialise_concrete_params` (296-317), `param_substitution` (422-447).

Simplifications: diagrams are keys of a type `K`; the map from diagrams to circuits is a list of pairs. `list(symbols_set)` may have any order. A tensor is a shape with its entries; dividing by a sum
that is 0 gives nan in torch, which is not modelled: theorems ask for a sum that is not 0. A scalar box has no symbol.
-/

namespace Lambeq
open QBox
open FastSubs (param lookups lambdifyNum)
set_option linter.unusedSectionVars false
set_option linter.unusedSimpArgs false

namespace PlModel
noncomputable section

/-- `Gate.phase` -/
inductive SPhase
  | none
  | num (θ : ℝ)
  | symbol (s : Sym ℝ)
  | array (c : ℂ)

/-- The fields of `Gate` (quantum.py:1514-1541) that `to_pennylane` reads. -/
structure SGate where
  gtype : String
  qubits : List Nat
  phase : SPhase

/-- An entry of `_ops`, `_params` and `_wires`. -/
structure SOp where
  name : String
  params : List (FastSubs.Data ℝ)
  wires : List Nat

/-- `PennyLaneCircuit` -/
structure SCircuit where
  nQubits : Nat
  ops : List SOp
  symbols : List (Sym ℝ)
  post : List (Nat × Nat)
  mixed : Bool
  probs : Bool
  scale : ℂ

/-- pennylane.py:202 -/
def SGate.number (g : SGate) : Option ℂ :=
  if g.gtype = "Scalar" then
    match g.phase with
    | .array c => some c
    | .num θ => some (θ : ℂ)
    | _ => none
  else none

/-- pennylane.py:200-204, as in `takeScalars`. -/
def takeS : List SGate → ℂ × List SGate
  | [] => (1, [])
  | [g] => match g.number with
    | some c => (c, [])
    | none => (1, [g])
  | g :: h :: gs => match g.number with
    | some c => (c * (takeS gs).1, h :: (takeS gs).2)
    | none => ((takeS (h :: gs)).1, g :: (takeS (h :: gs)).2)

/-- pennylane.py:120-140; a symbol is always true. -/
def sParams : SPhase → List (FastSubs.Data ℝ)
  | .num θ => if θ = 0 then [] else [.value (some θ)]
  | .symbol s => [.symbol s]
  | _ => []

/-- pennylane.py:118-142 -/
def sOps : List SGate → Except PyErr (List SOp)
  | [] => .ok []
  | g :: gs =>
    if plSig g.gtype = none then .error .keyError
    else match sOps gs with
      | .error e => .error e
      | .ok ops => .ok (⟨g.gtype, sParams g.phase, g.qubits⟩ :: ops)

/-- The symbols of the parameters, with repetitions. -/
def SOp.syms (o : SOp) : List (Sym ℝ) := o.params.filterMap (fun p => match p with
  | .symbol s => some s
  | .value _ => none)
def symsOf (ops : List SOp) : List (Sym ℝ) := (ops.map SOp.syms).flatten

/-- pennylane.py:198-222 on what `readoff_circuital` gives; `order` is the order of `list(symbols_set)`. -/
def sFrom (mixed probs : Bool) (n : Nat) (gates : List SGate) (post : List (Nat × Nat)) (order : List (Sym ℝ) → List (Sym ℝ)) : Except PyErr SCircuit :=
  match sOps (takeS gates).2 with
  | .error e => .error e
  | .ok ops => .ok ⟨n, ops, order (symsOf ops), post, mixed, probs, (takeS gates).1⟩

/-- A set as a list: the same elements, each once. -/
def IsSet (order : List (Sym ℝ) → List (Sym ℝ)) : Prop := ∀ l, (order l).Nodup ∧ ∀ s, s ∈ order l ↔ s ∈ l

/-- pennylane.py:438-446: the parameters of one operation. -/
def substParams (syms : List (Sym ℝ)) (ws : List ℝ) : List (FastSubs.Data ℝ) → Except PyErr (List ℝ)
  | [] => .ok []
  | e :: es => match lambdifyNum syms ws e with
    | .error e => .error e
    | .ok (.value (some x)) => match substParams syms ws es with
      | .error e => .error e
      | .ok xs => .ok (x :: xs)
    | .ok _ => .error .typeError

/-- pennylane.py:437-447 -/
def substOps (syms : List (Sym ℝ)) (ws : List ℝ) : List SOp → Except PyErr (List PlOp)
  | [] => .ok []
  | o :: os => match substParams syms ws o.params with
    | .error e => .error e
    | .ok ps => match substOps syms ws os with
      | .error e => .error e
      | .ok qs => .ok (⟨o.name, ps, o.wires⟩ :: qs)

/-- pennylane.py:296-317: the circuit with concrete parameters; without symbols the parameters are used as they are. -/
def concrete (symbols : List (Sym ℝ)) (weights : List ℝ) (c : SCircuit) : Except PyErr PlCircuit :=
  match (if symsOf c.ops = [] then .ok [] else lookups symbols weights c.symbols) with
  | .error e => .error e
  | .ok ws => match substOps c.symbols ws c.ops with
    | .error e => .error e
    | .ok ops => .ok ⟨c.nQubits, ops, c.post, c.mixed, c.probs, c.scale⟩

/-- pennylane_model.py:46-76 -/
structure Model (K : Type) where
  circuits : List (K × SCircuit)
  symbols : List (Sym ℝ)
  weights : List ℝ
  probs : Bool
  normalize : Bool

variable {K : Type} [DecidableEq K]

/-- pennylane_model.py:179-182 -/
def evals (m : Model K) : List K → Except PyErr (List (NdArray ℂ))
  | [] => .ok []
  | k :: ks => match m.circuits.lookup k with
    | none => .error .keyError
    | some c => match concrete m.symbols m.weights c with
      | .error e => .error e
      | .ok p => match plEval p with
        | .error e => .error e
        | .ok a => match evals m ks with
          | .error e => .error e
          | .ok as => .ok (a :: as)

/-- pennylane_model.py:184-189 -/
def normalised (m : Model K) (a : NdArray ℂ) : NdArray ℂ :=
  if m.normalize then
    if m.probs then ⟨a.shape, a.flat.map (fun x => x / a.flat.sum)⟩
    else ⟨a.shape, a.flat.map (fun x => x / ((a.flat.map Complex.normSq).sum : ℂ))⟩
  else a

/-- `squeeze(-1)` on a shape. -/
def squeeze (s : List Nat) : List Nat := if s.getLast? = some 1 then s.dropLast else s

/-- pennylane_model.py:191-192 -/
def stack : List (NdArray ℂ) → Except PyErr (NdArray ℂ)
  | [] => .error .runtimeError
  | a :: as => if as.all (fun b => decide (b.shape = a.shape)) then .ok ⟨squeeze ((as.length + 1) :: a.shape), ((a :: as).map NdArray.flat).flatten⟩ else .error .runtimeError

/-- pennylane_model.py:158-217; line 195 reads `self.weights[0]`. -/
def forward (m : Model K) (ks : List K) : Except PyErr (NdArray ℂ) :=
  match evals m ks with
  | .error e => .error e
  | .ok as => match stack (as.map (normalised m)) with
    | .error e => .error e
    | .ok r => if m.probs ∧ m.weights = [] then .error .indexError else .ok r

/-! ## Specification: putting values for symbols -/

/-- A gate with numbers for its symbols. -/
def SPhase.put (ρ : Sym ℝ → ℝ) : SPhase → Phase
  | .none => .none
  | .num θ => .angle θ
  | .symbol s => .angle (s.scale * ρ s.unscaled)
  | .array c => .array c

/-- The gate `g` is the symbolic gate with numbers. -/
def Put (ρ : Sym ℝ → ℝ) (s : SGate) (g : Gate) : Prop := g.gtype = s.gtype ∧ g.qubits = s.qubits ∧ g.phase = s.phase.put ρ ∧ (s.gtype = "Scalar" → ∀ t, s.phase ≠ .symbol t)

/-- The values that a model has for symbols. -/
def Model.value (m : Model K) (s : Sym ℝ) : ℝ := (param m.symbols m.weights s).getD 0

/-! ## Proof -/

theorem Put.number {ρ : Sym ℝ → ℝ} {s : SGate} {g : Gate} (h : Put ρ s g) : g.number = s.number := by
  obtain ⟨h1, _, h3, h4⟩ := h
  unfold Gate.number SGate.number
  rw [h1]
  split_ifs with hs
  · rw [h3]
    cases hp : s.phase with
    | symbol t => exact absurd hp (h4 hs t)
    | none => rfl
    | num θ => rfl
    | array c => rfl
  · rfl

theorem takeS_put {ρ : Sym ℝ → ℝ} : ∀ (S : List SGate) (G : List Gate), List.Forall₂ (Put ρ) S G → (takeScalars G).1 = (takeS S).1 ∧ List.Forall₂ (Put ρ) (takeS S).2 (takeScalars G).2
  | [], _, h => by cases h; exact ⟨rfl, .nil⟩
  | [s], _, h => by
    obtain _ | ⟨h1, h2⟩ := h
    cases h2
    have := h1.number
    unfold takeScalars takeS
    rw [this]
    cases s.number with
    | none => exact ⟨rfl, .cons h1 .nil⟩
    | some c => exact ⟨rfl, .nil⟩
  | s :: t :: S, _, h => by
    obtain _ | ⟨h1, h2⟩ := h
    obtain _ | ⟨h3, h4⟩ := h2
    have e := h1.number
    unfold takeScalars takeS
    rw [e]
    cases s.number with
    | none =>
      obtain ⟨i1, i2⟩ := takeS_put (t :: S) _ (.cons h3 h4)
      exact ⟨i1, .cons h1 i2⟩
    | some c =>
      obtain ⟨i1, i2⟩ := takeS_put S _ h4
      exact ⟨by simp only; rw [i1], .cons h3 i2⟩

/-- The operations with numbers for the symbols. -/
def dataVal (ρ : Sym ℝ → ℝ) : FastSubs.Data ℝ → ℝ
  | .value x => x.getD 0
  | .symbol s => s.scale * ρ s.unscaled

def SOp.put (ρ : Sym ℝ → ℝ) (o : SOp) : PlOp := ⟨o.name, o.params.map (dataVal ρ), o.wires⟩

/-- The circuit with numbers for the symbols. -/
def SCircuit.put (ρ : Sym ℝ → ℝ) (c : SCircuit) : PlCircuit := ⟨c.nQubits, c.ops.map (SOp.put ρ), c.post, c.mixed, c.probs, c.scale⟩

theorem sOps_put {ρ : Sym ℝ → ℝ} : ∀ (S : List SGate) (G : List Gate), List.Forall₂ (Put ρ) S G → (∀ s ∈ S, ∀ t, s.phase = .symbol t → t.scale * ρ t.unscaled ≠ 0) →
    ∀ ops, sOps S = .ok ops → plOps G = .ok (ops.map (SOp.put ρ)) := by
  intro S
  induction S with
  | nil =>
    intro G h _ ops ho
    cases h
    simp only [sOps, Except.ok.injEq] at ho
    subst ho; rfl
  | cons s S ih =>
    intro G h hz ops ho
    obtain _ | ⟨h1, h2⟩ := h
    rename_i g G
    unfold sOps at ho
    unfold plOps
    rw [h1.1]
    split_ifs at ho with hs
    rw [if_neg hs]
    cases hr : sOps S with
    | error e => rw [hr] at ho; simp at ho
    | ok r =>
      rw [hr] at ho
      simp only [Except.ok.injEq] at ho
      subst ho
      rw [ih G h2 (fun t ht => hz t (by simp [ht])) r hr]
      simp only [List.map_cons, SOp.put, Except.ok.injEq, List.cons.injEq, and_true]
      rw [h1.2.1, h1.2.2.1]
      congr 1
      cases hp : s.phase with
      | none => rfl
      | array c => rfl
      | num θ =>
        simp only [SPhase.put, plParams, sParams]
        split_ifs <;> simp [dataVal]
      | symbol t =>
        simp only [SPhase.put, plParams, sParams]
        rw [if_neg (hz s (by simp) t hp)]
        simp [dataVal]

theorem sOps_values : ∀ (S : List SGate) (ops : List SOp), sOps S = .ok ops → ∀ o ∈ ops, ∀ p ∈ o.params, p ≠ .value none := by
  intro S
  induction S with
  | nil => intro ops h; simp only [sOps, Except.ok.injEq] at h; subst h; simp
  | cons s S ih =>
    intro ops h
    unfold sOps at h
    split_ifs at h
    cases hr : sOps S with
    | error e => rw [hr] at h; simp at h
    | ok r =>
      rw [hr] at h
      simp only [Except.ok.injEq] at h
      subst h
      intro o ho p hp
      rcases List.mem_cons.1 ho with rfl | ho
      · cases hs : s.phase <;> simp only [sParams, hs] at hp
        · simp at hp
        · split_ifs at hp <;> simp at hp
          subst hp; simp
        · simp only [List.mem_singleton] at hp
          subst hp; simp
        · simp at hp
      · exact ih r hr o ho p hp

theorem lookups_ok {symbols : List (Sym ℝ)} {weights : List ℝ} : ∀ (ss : List (Sym ℝ)), (∀ s ∈ ss, (param symbols weights s).isSome = true) →
    lookups symbols weights ss = .ok (ss.map (fun s => (param symbols weights s).getD 0)) := by
  intro ss
  induction ss with
  | nil => intro _; rfl
  | cons s ss ih =>
    intro h
    obtain ⟨v, hv⟩ := Option.isSome_iff_exists.1 (h s (by simp))
    simp only [lookups, hv, ih (fun t ht => h t (by simp [ht])), List.map_cons, Option.getD_some]

theorem lookups_missing {symbols : List (Sym ℝ)} {weights : List ℝ} : ∀ (ss : List (Sym ℝ)), (∃ s ∈ ss, param symbols weights s = none) → lookups symbols weights ss = .error .keyError := by
  intro ss
  induction ss with
  | nil => rintro ⟨s, hs, _⟩; simp at hs
  | cons s ss ih =>
    rintro ⟨t, ht, hn⟩
    simp only [lookups]
    cases hp : param symbols weights s with
    | none => rfl
    | some v =>
      rcases List.mem_cons.1 ht with rfl | ht
      · rw [hp] at hn; simp at hn
      · simp only [ih ⟨t, ht, hn⟩]

theorem lambdify_sym {syms : List (Sym ℝ)} {f : Sym ℝ → ℝ} {s : Sym ℝ} (hs : s ∈ syms) (h1 : s.scale = 1) : lambdifyNum syms (syms.map f) (.symbol s) = .ok (.value (some (f s))) := by
  have hu : s.unscaled = s := by cases s; simp_all [Sym.unscaled]
  unfold lambdifyNum
  simp only [hu]
  cases hi : syms.findIdx? (fun t => decide (t = s)) with
  | none =>
    rw [List.findIdx?_eq_none_iff] at hi
    have := hi s hs
    simp at this
  | some i =>
    obtain ⟨hi1, hi2, _⟩ := List.findIdx?_eq_some_iff_getElem.1 hi
    simp only [decide_eq_true_eq] at hi2
    simp only [List.getElem?_map, List.getElem?_eq_getElem hi1, Option.map_some, hi2, h1, ne_eq, not_true_eq_false, if_false]

theorem substParams_ok {syms : List (Sym ℝ)} {f : Sym ℝ → ℝ} : ∀ (ps : List (FastSubs.Data ℝ)), (∀ p ∈ ps, p ≠ .value none) → (∀ s, FastSubs.Data.symbol s ∈ ps → s ∈ syms ∧ s.scale = 1) →
    substParams syms (syms.map f) ps = .ok (ps.map (dataVal f)) := by
  intro ps
  induction ps with
  | nil => intro _ _; rfl
  | cons p ps ih =>
    intro h1 h2
    have r := ih (fun q hq => h1 q (by simp [hq])) (fun s hs => h2 s (by simp [hs]))
    cases p with
    | value x =>
      cases x with
      | none => exact absurd rfl (h1 _ (by simp))
      | some x => simp only [substParams, lambdifyNum, r, List.map_cons, dataVal, Option.getD_some]
    | symbol s =>
      obtain ⟨a, b⟩ := h2 s (by simp)
      have hu : s.unscaled = s := by cases s; simp_all [Sym.unscaled]
      simp only [substParams, lambdify_sym a b, r, List.map_cons, dataVal, hu, b, one_mul]

theorem substOps_ok {syms : List (Sym ℝ)} {f : Sym ℝ → ℝ} : ∀ (ops : List SOp), (∀ o ∈ ops, ∀ p ∈ o.params, p ≠ .value none) → (∀ s ∈ symsOf ops, s ∈ syms ∧ s.scale = 1) →
    substOps syms (syms.map f) ops = .ok (ops.map (SOp.put f)) := by
  intro ops
  induction ops with
  | nil => intro _ _; rfl
  | cons o ops ih =>
    intro h1 h2
    have r := ih (fun q hq => h1 q (by simp [hq])) (fun s hs => h2 s (by simp only [symsOf, List.map_cons, List.flatten_cons, List.mem_append] at hs ⊢; exact .inr hs))
    have p := substParams_ok (f := f) o.params (h1 o (by simp)) (fun s hs => h2 s (by
      simp only [symsOf, List.map_cons, List.flatten_cons, List.mem_append]
      left
      exact List.mem_filterMap.2 ⟨_, hs, rfl⟩))
    simp only [substOps, p, r, List.map_cons, SOp.put]

theorem substOps_numbers {syms : List (Sym ℝ)} {ws : List ℝ} (f : Sym ℝ → ℝ) : ∀ (ops : List SOp), (∀ o ∈ ops, ∀ p ∈ o.params, p ≠ .value none) → symsOf ops = [] →
    substOps syms ws ops = .ok (ops.map (SOp.put f)) := by
  intro ops
  induction ops with
  | nil => intro _ _; rfl
  | cons o ops ih =>
    intro h1 h2
    simp only [symsOf, List.map_cons, List.flatten_cons, List.append_eq_nil_iff] at h2
    have r := ih (fun q hq => h1 q (by simp [hq])) h2.2
    have p : ∀ (ps : List (FastSubs.Data ℝ)), (∀ p ∈ ps, p ≠ .value none) → (∀ s, FastSubs.Data.symbol s ∉ ps) → substParams syms ws ps = .ok (ps.map (dataVal f)) := by
      intro ps
      induction ps with
      | nil => intro _ _; rfl
      | cons q ps ih =>
        intro g1 g2
        have r := ih (fun q hq => g1 q (by simp [hq])) (fun s hs => g2 s (by simp [hs]))
        cases q with
        | value x =>
          cases x with
          | none => exact absurd rfl (g1 _ (by simp))
          | some x => simp only [substParams, lambdifyNum, r, List.map_cons, dataVal, Option.getD_some]
        | symbol s => exact absurd (by simp) (g2 s)
    have := p o.params (h1 o (by simp)) (fun s hs => by
      have : s ∈ o.syms := List.mem_filterMap.2 ⟨_, hs, rfl⟩
      rw [h2.1] at this; simp at this)
    simp only [substOps, this, r, List.map_cons, SOp.put]

/-- A circuit made by `to_pennylane` from symbolic gates. -/
def Made (c : SCircuit) : Prop := ∃ n gates post mixed probs order, IsSet order ∧ sFrom mixed probs n gates post order = .ok c

theorem Made.spec {c : SCircuit} (h : Made c) : (∀ s, s ∈ c.symbols ↔ s ∈ symsOf c.ops) ∧ ∀ o ∈ c.ops, ∀ p ∈ o.params, p ≠ .value none := by
  obtain ⟨n, gates, post, mixed, probs, order, ho, h⟩ := h
  unfold sFrom at h
  cases hr : sOps (takeS gates).2 with
  | error e => rw [hr] at h; simp at h
  | ok ops =>
    rw [hr] at h
    simp only [Except.ok.injEq] at h
    subst h
    exact ⟨(ho _).2, sOps_values _ _ hr⟩

/-- C98. The weights are put for the symbols, by position, whatever the order of the set of symbols: for circuits whose symbols are among those of the model and are not scaled. -/
theorem C98_weights_partial {c : SCircuit} (h : Made c) (m : Model K) (hs : ∀ s ∈ symsOf c.ops, s.scale = 1 ∧ (param m.symbols m.weights s).isSome = true) :
    concrete m.symbols m.weights c = .ok (c.put m.value) := by
  obtain ⟨h1, h2⟩ := h.spec
  unfold concrete
  by_cases he : symsOf c.ops = []
  · simp only [he, if_true]
    rw [substOps_numbers m.value c.ops h2 he]
    rfl
  · simp only [he, if_false]
    rw [lookups_ok c.symbols (fun s hs' => (hs s ((h1 s).1 hs')).2)]
    simp only
    rw [substOps_ok c.ops h2 (fun s hs' => ⟨(h1 s).2 hs', (hs s hs').1⟩)]
    rfl

/-- C98, refuted: with a scaled symbol anywhere in the circuit (a rotation by `-s`, say, in a dagger), evaluation raises `KeyError`: the model has the symbol without the scale. -/
theorem C98_refuted_scaled {c : SCircuit} (h : Made c) (m : Model K) (hm : ∀ s ∈ m.symbols, s.scale = 1) {s : Sym ℝ} (hs : s ∈ symsOf c.ops) (hsc : s.scale ≠ 1) :
    concrete m.symbols m.weights c = .error .keyError := by
  obtain ⟨h1, _⟩ := h.spec
  unfold concrete
  have he : symsOf c.ops ≠ [] := List.ne_nil_of_mem hs
  simp only [he, if_false]
  rw [lookups_missing c.symbols ⟨s, (h1 s).2 hs, ?_⟩]
  unfold param
  rw [Option.map_eq_none_iff, List.find?_eq_none]
  intro p hp
  rw [List.mem_reverse] at hp
  simp only [decide_eq_true_eq]
  intro he'
  exact hsc (he' ▸ hm p.1 (List.of_mem_zip hp).1)

/-- C98. The circuit of a diagram with symbols, with numbers put for them, is the circuit of the diagram with these numbers: `d` is any circuit that reads off as the symbolic gates with the numbers.
(The numbers are not 0: `to_pennylane` of a rotation by 0 has no parameter, see C95; with a symbol it has.) -/
theorem C98_convert {ρ : Sym ℝ → ℝ} {d : Diagram QOb QBox} {n : Nat} {i : Info} {S : List SGate} {order : List (Sym ℝ) → List (Sym ℝ)} {probs : Bool} {c : SCircuit} (hd : d.boxes.any isMeasure = false)
    (hc : isCircuital d = true) (hr : readoff d = .ok (n, i)) (hS : List.Forall₂ (Put ρ) S i.gates) (hz : ∀ s ∈ S, ∀ t, s.phase = .symbol t → t.scale * ρ t.unscaled ≠ 0)
    (hf : sFrom (mixedDiagram d) probs n S i.postmap order = .ok c) : toPennylane d probs = .ok (c.put ρ) := by
  unfold toPennylane
  rw [hd, hc]
  simp only [Bool.false_eq_true, if_false, if_true]
  unfold plFrom
  rw [hr]
  simp only
  obtain ⟨t1, t2⟩ := takeS_put S i.gates hS
  unfold sFrom at hf
  cases ho : sOps (takeS S).2 with
  | error e => rw [ho] at hf; simp at hf
  | ok ops =>
    rw [ho] at hf
    simp only [Except.ok.injEq] at hf
    have hsub : ∀ (S : List SGate), ∀ s ∈ (takeS S).2, s ∈ S := by
      intro S
      induction S using takeS.induct with
      | case1 => simp [takeS]
      | case2 g c hg => simp [takeS, hg]
      | case3 g hg => simp [takeS, hg]
      | case4 g h gs c hg ih =>
        simp only [takeS, hg, List.mem_cons]
        rintro s (rfl | hs)
        · simp
        · exact .inr (.inr (ih s hs))
      | case5 g h gs hg ih =>
        simp only [takeS, hg, List.mem_cons]
        rintro s (rfl | hs)
        · simp
        · exact .inr (by simpa using ih s hs)
    rw [sOps_put _ _ t2 (fun s hs => hz s (hsub S s hs)) ops ho, t1, ← hf]
    rfl

end
end PlModel
end Lambeq
