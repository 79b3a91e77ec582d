import Verif.Tensor.Lambdify
import Mathlib.Algebra.Ring.Rat

/-!
# Substituting the weights of a model into shared box objects (C79)

Models `lambeq/training/quantum_model.py`: `QuantumModel._fast_subs` (132-154), `lambeq/training/pytorch_model.py`: the loop of `get_diagram_output` (162-172),
with the Python objects involved: boxes are mutable and may be shared between positions, diagrams and other boxes; `Controlled` and `Daggered` boxes keep a copy of the
data of the box they hold and forward assignments of `data` to it (quantum.py:940-956, 1137-1148; tensor.py:602-608); `free_symbols` is a cached property
(tensor.py:239-254); evaluating a rotation raises when its `free_symbols` is not empty (quantum.py:848-855).

The heap is a list of objects; a reference is a position, and a box holds only boxes made before it. Data are numbers, `None` or a symbol (object arrays are not modelled).
-/

namespace Lambeq
namespace FastSubs
set_option linter.unusedSectionVars false
set_option linter.unusedSimpArgs false

/-- `box.data` of a quantum box (symbol.py:20-44, quantum.py:148). -/
inductive Data (R : Type)
  | value (x : Option R)
  | symbol (s : Sym R)
  deriving DecidableEq

/-- How a box refers to another one: not at all, as `controlled` (quantum.py:940) or as `box` of `Daggered` (quantum.py:1128). -/
inductive Link
  | leaf
  | controlled (i : Nat)
  | daggered (i : Nat)
  deriving DecidableEq

/-- A box object: the attributes that the substitution reads or writes. `cache` is the instance attribute a `cached_property` stores (tensor.py:239). -/
structure Obj (R : Type) where
  link : Link
  data : Data R
  cache : Option (List (Sym R))
  deriving DecidableEq

/-- The heap. -/
abbrev Heap (R : Type) := List (Obj R)

variable {R : Type} [CommRing R] [DecidableEq R]

instance : Inhabited (Obj R) := ⟨⟨.leaf, .value none, none⟩⟩

/-- `recursive_free_symbols(data)`, tensor.py:241-253. -/
def Data.free : Data R → List (Sym R)
  | .value _ => []
  | .symbol s => [s.unscaled]

/-- `symbol.lambdify(syms, expr)(*values)`, symbol.py:89-111, on numbers. -/
def lambdifyNum (syms : List (Sym R)) (values : List R) : Data R → Except PyErr (Data R)
  | .value x => .ok (.value x)
  | .symbol s => match syms.findIdx? (fun t => decide (t = s.unscaled)) with
    | none => .error .valueError
    | some i => match values[i]? with
      | none => .error .indexError
      | some v => .ok (.value (some (if s.scale ≠ 1 then s.scale * v else v)))

/-- Attribute access `h[i].free_symbols` (tensor.py:239): the cached value if there is one, otherwise it is computed and stored. -/
def accessFree (h : Heap R) (i : Nat) : List (Sym R) × Heap R :=
  match (h.getD i default).cache with
  | some c => (c, h)
  | none => ((h.getD i default).data.free, h.set i { h.getD i default with cache := some (h.getD i default).data.free })

/-- `while hasattr(b, 'controlled'): b = b.controlled`, quantum_model.py:141-142. The first argument bounds the number of steps; `i + 1` is always enough. -/
def innermost (h : Heap R) : Nat → Nat → Nat
  | 0, i => i
  | k + 1, i => match (h.getD i default).link with
    | .controlled j => innermost h k j
    | _ => i

/-- Assignment `h[i].data = v`: `Controlled.__setattr__` (quantum.py:953-956) and `Daggered.__setattr__` (quantum.py:1145-1148) first assign to the box they hold. -/
def setData (h : Heap R) (v : Data R) : Nat → Nat → Heap R
  | 0, i => h.set i { h.getD i default with data := v }
  | k + 1, i => match (h.getD i default).link with
    | .leaf => h.set i { h.getD i default with data := v }
    | .controlled j | .daggered j =>
      let h' := setData h v k j
      h'.set i { h'.getD i default with data := v }

/-- `parameters[sym]` where `parameters = {k: v for k, v in zip(self.symbols, weights)}`, quantum_model.py:136, 146-151: the last entry of a dictionary wins. -/
def param (symbols : List (Sym R)) (weights : List R) (s : Sym R) : Option R :=
  ((symbols.zip weights).reverse.find? (fun p => decide (p.1 = s))).map (·.2)

/-- quantum_model.py:143-151: look up the values of the symbols, in order. -/
def lookups (symbols : List (Sym R)) (weights : List R) : List (Sym R) → Except PyErr (List R)
  | [] => .ok []
  | s :: ss => match param symbols weights s with
    | none => .error .keyError
    | some v => match lookups symbols weights ss with
      | .error e => .error e
      | .ok vs => .ok (v :: vs)

/-- `del b.free_symbols`, quantum_model.py:153: removes the stored attribute; AttributeError if there is none. -/
def delFree (h : Heap R) (i : Nat) : Except PyErr (Heap R) :=
  match (h.getD i default).cache with
  | none => .error .attributeError
  | some _ => .ok (h.set i { h.getD i default with cache := none })

/-- The body of the inner loop, quantum_model.py:140-153, for the box `i`. -/
def subsBox (symbols : List (Sym R)) (weights : List R) (h : Heap R) (i : Nat) : Except PyErr (Heap R) :=
  match accessFree h i with
  | (f, h1) =>
    if f = [] then .ok h1
    else
      let b := innermost h1 (i + 1) i
      match accessFree h1 b with
      | (syms, h2) =>
        match lookups symbols weights syms with
        | .error e => .error e
        | .ok values =>
          match lambdifyNum syms values (h2.getD b default).data with
          | .error e => .error e
          | .ok v => delFree (setData h2 v (b + 1) b) b

/-- The loop over the boxes of all diagrams, quantum_model.py:138-139. -/
def subsLoop (symbols : List (Sym R)) (weights : List R) : Heap R → List Nat → Except PyErr (Heap R)
  | h, [] => .ok h
  | h, i :: is => match subsBox symbols weights h i with
    | .error e => .error e
    | .ok h' => subsLoop symbols weights h' is

/-- The copy of an object `n` positions up. -/
def Obj.shift (n : Nat) (o : Obj R) : Obj R :=
  { o with link := match o.link with | .leaf => .leaf | .controlled j => .controlled (n + j) | .daggered j => .daggered (n + j) }

/-- `fast_deepcopy`, core/utils.py:100-102: pickling and unpickling makes new objects with the same attributes and the same sharing. Here the whole heap is copied. -/
def deepcopy (h : Heap R) : Heap R := h ++ h.map (Obj.shift h.length)

/-- `QuantumModel._fast_subs(diagrams, weights)`, quantum_model.py:132-154; a diagram is given by its boxes (references). -/
def fastSubs (symbols : List (Sym R)) (weights : List R) (h : Heap R) (diagrams : List (List Nat)) : Except PyErr (Heap R × List (List Nat)) :=
  let copies := diagrams.map (·.map (h.length + ·))
  match subsLoop symbols weights (deepcopy h) copies.flatten with
  | .error e => .error e
  | .ok h' => .ok (h', copies)

/-! ## What evaluation reads -/

/-- The number that the array of box `i` is computed from: a controlled box asks the box it controls (quantum.py:995-1008), a daggered box the box it daggers (quantum.py:1120-1151,
tensor.py:185-194), and a rotation raises RuntimeError while its `free_symbols` is not empty (quantum.py:848-855). -/
def evalRead (h : Heap R) : Nat → Nat → Except PyErr (Data R)
  | 0, i => .ok (h.getD i default).data
  | k + 1, i => match (h.getD i default).link with
    | .leaf => if (accessFree h i).1 = [] then .ok (h.getD i default).data else .error .runtimeError
    | .controlled j => evalRead h k j
    | .daggered j => .ok (h.getD j default).data

/-! ## Specification -/

/-- The data a box was made with, after giving each symbol its weight. -/
def Data.subst (ρ : Sym R → Option R) : Data R → Option (Data R)
  | .value x => some (.value x)
  | .symbol s => (ρ s.unscaled).map (fun v => .value (some (s.scale * v)))

/-- The held box of a box. -/
def Link.next : Link → Option Nat
  | .leaf => none
  | .controlled j | .daggered j => some j

/-- Heaps that the constructors build: a box holds a box made before it and starts with its data (quantum.py:944-948, 1141); what is cached was computed from the data; the box
under a dagger is not a controlled or daggered one (`dagger` never makes these: quantum.py:157-162, 870-871, 1013-1014, 1150-1151). -/
def Made (h : Heap R) : Prop :=
  ∀ i, i < h.length →
    (∀ j, (h.getD i default).link.next = some j → j < i ∧ (h.getD i default).data = (h.getD j default).data) ∧
    (∀ j, (h.getD i default).link = .daggered j → (h.getD j default).link = .leaf) ∧
    (∀ c, (h.getD i default).cache = some c → c = (h.getD i default).data.free)

/-! ## Proof -/

theorem getD_set (h : Heap R) (i k : Nat) (o : Obj R) (hi : i < h.length) : (h.set i o).getD k default = if k = i then o else h.getD k default := by
  rw [List.getD_eq_getElem?_getD, List.getElem?_set]
  by_cases hk : k = i
  · subst hk; simp [hi]
  · simp [hk, Ne.symm hk]

theorem subst_of_free {ρ : Sym R → Option R} {d : Data R} (h : d.free = []) : d.subst ρ = some d := by
  cases d with
  | value x => rfl
  | symbol s => simp [Data.free] at h

theorem free_of_subst {ρ : Sym R → Option R} {d e : Data R} (h : d.subst ρ = some e) : e.free = [] := by
  cases d with
  | value x => simp [Data.subst] at h; subst h; rfl
  | symbol s =>
    simp only [Data.subst, Option.map_eq_some_iff] at h
    obtain ⟨v, _, rfl⟩ := h; rfl

/-- What holds of the heap `h` while the loop runs on a heap that was `g` at the start. -/
structure Inv (ρ : Sym R → Option R) (g h : Heap R) : Prop where
  len : h.length = g.length
  link : ∀ i, (h.getD i default).link = (g.getD i default).link
  data : ∀ i, (h.getD i default).data = (g.getD i default).data ∨ (g.getD i default).data.subst ρ = some (h.getD i default).data
  cache : ∀ i c, (h.getD i default).cache = some c → c = (g.getD i default).data.free ∨ (c = [] ∧ (h.getD i default).data.free = [])
  ctrl : ∀ i j, (g.getD i default).link = .controlled j → (h.getD i default).data = (g.getD i default).data
  down : ∀ i j, (g.getD i default).link = .daggered j → (h.getD i default).data.free = [] → (h.getD j default).data.free = []

/-- The box `b` can be evaluated. -/
def Fin (g h : Heap R) (b : Nat) : Prop :=
  match (g.getD b default).link with
  | .leaf => (h.getD b default).data.free = [] ∧ (∀ c, (h.getD b default).cache = some c → c = [])
  | .daggered j => (h.getD j default).data.free = []
  | .controlled _ => False

theorem Inv.subst {ρ : Sym R → Option R} {g h : Heap R} (I : Inv ρ g h) (i : Nat) (hf : (h.getD i default).data.free = []) :
    (g.getD i default).data.subst ρ = some (h.getD i default).data := by
  rcases I.data i with e | e
  · rw [← e]; exact subst_of_free hf
  · exact e

/-- The successive heaps of the loop: only data and caches change, data only from symbols to values. -/
structure Step (ρ : Sym R → Option R) (g h h' : Heap R) : Prop where
  inv : Inv ρ g h'
  keep : ∀ i, (h.getD i default).data.free = [] → (h'.getD i default).data = (h.getD i default).data
  cached : ∀ i, (h.getD i default).data.free = [] → (∀ c, (h.getD i default).cache = some c → c = []) → ∀ c, (h'.getD i default).cache = some c → c = []

theorem Step.fin {ρ : Sym R → Option R} {g h h' : Heap R} (S : Step ρ g h h') {b : Nat} (hb : Fin g h b) : Fin g h' b := by
  unfold Fin at hb ⊢
  split at hb
  · rw [S.keep b hb.1]; exact ⟨hb.1, S.cached b hb.1 hb.2⟩
  · rename_i j _; rw [S.keep j hb]; exact hb
  · exact hb.elim

theorem Step.trans {ρ : Sym R → Option R} {g h h' h'' : Heap R} (S : Step ρ g h h') (T : Step ρ g h' h'') : Step ρ g h h'' where
  inv := T.inv
  keep i hi := by rw [T.keep i (by rw [S.keep i hi]; exact hi), S.keep i hi]
  cached i hi hc := T.cached i (by rw [S.keep i hi]; exact hi) (S.cached i hi hc)

theorem Step.refl {ρ : Sym R → Option R} {g h : Heap R} (I : Inv ρ g h) : Step ρ g h h := ⟨I, fun _ _ => rfl, fun _ _ hc => hc⟩

theorem access_fst {ρ : Sym R → Option R} {g h : Heap R} (I : Inv ρ g h) (i : Nat) :
    (accessFree h i).1 = (g.getD i default).data.free ∨ ((accessFree h i).1 = [] ∧ (h.getD i default).data.free = []) := by
  unfold accessFree
  split
  · rename_i c hc; exact I.cache i c hc
  · rcases I.data i with e | e
    · left; rw [e]
    · right; exact ⟨free_of_subst e, free_of_subst e⟩

theorem access_getD (h : Heap R) (i k : Nat) : ((accessFree h i).2.getD k default).data = (h.getD k default).data ∧
    ((accessFree h i).2.getD k default).link = (h.getD k default).link ∧
    (k ≠ i → (accessFree h i).2.getD k default = h.getD k default) := by
  unfold accessFree
  split
  · exact ⟨rfl, rfl, fun _ => rfl⟩
  · by_cases hi : i < h.length
    · simp only [getD_set _ _ _ _ hi]
      by_cases hk : k = i
      · subst hk; simp
      · simp [hk]
    · simp [List.set_eq_of_length_le (Nat.le_of_not_lt hi)]

theorem access_cache (h : Heap R) (i : Nat) (hi : i < h.length) : ((accessFree h i).2.getD i default).cache = some (accessFree h i).1 := by
  unfold accessFree
  split
  · rename_i c hc; exact hc
  · rw [getD_set _ _ _ _ hi, if_pos rfl]

theorem access_len (h : Heap R) (i : Nat) : (accessFree h i).2.length = h.length := by
  unfold accessFree; split <;> simp

theorem access_step {ρ : Sym R → Option R} {g h : Heap R} (I : Inv ρ g h) (i : Nat) (hi : i < h.length) : Step ρ g h (accessFree h i).2 := by
  refine ⟨⟨by rw [access_len, I.len], fun k => by rw [(access_getD h i k).2.1, I.link], fun k => by rw [(access_getD h i k).1]; exact I.data k, ?_,
    fun k j hk => by rw [(access_getD h i k).1, I.ctrl k j hk], fun k j hk => by rw [(access_getD h i k).1, (access_getD h i j).1]; exact I.down k j hk⟩,
    fun k _ => (access_getD h i k).1, ?_⟩
  · intro k c hc
    by_cases hk : k = i
    · subst hk
      rw [access_cache h k hi] at hc
      simp only [Option.some.injEq] at hc
      rw [(access_getD h k k).1, ← hc]
      exact access_fst I k
    · rw [(access_getD h i k).2.2 hk] at hc ⊢; exact I.cache k c hc
  · intro k hd hk c hc
    by_cases hki : k = i
    · subst hki
      rw [access_cache h k hi] at hc
      simp only [Option.some.injEq] at hc
      rw [← hc]
      unfold accessFree
      split
      · rename_i c' hc'; exact hk c' hc'
      · exact hd
    · rw [(access_getD h i k).2.2 hki] at hc; exact hk c hc

theorem innermost_spec {g : Heap R} (hg : Made g) (h : Heap R) (hl : ∀ i, (h.getD i default).link = (g.getD i default).link) (k i : Nat) (hi : i < g.length) (hk : i < k) :
    innermost h k i ≤ i ∧ (∀ j, (g.getD (innermost h k i) default).link ≠ .controlled j) ∧
    (g.getD (innermost h k i) default).data = (g.getD i default).data := by
  induction k generalizing i with
  | zero => omega
  | succ k ih =>
    unfold innermost
    rw [hl]
    split
    · rename_i j hj
      obtain ⟨hji, hd⟩ := (hg i hi).1 j (by rw [hj]; rfl)
      obtain ⟨h1, h2, h3⟩ := ih j (by omega) (by omega)
      exact ⟨by omega, h2, by rw [h3, hd]⟩
    · rename_i hj
      exact ⟨Nat.le_refl _, hj, rfl⟩

theorem evalRead_innermost {g : Heap R} (hg : Made g) (h : Heap R) (hl : ∀ i, (h.getD i default).link = (g.getD i default).link) (k i : Nat) (hi : i < g.length) (hk : i < k) :
    evalRead h k i = match (g.getD (innermost h k i) default).link with
      | .leaf => if (accessFree h (innermost h k i)).1 = [] then .ok (h.getD (innermost h k i) default).data else .error .runtimeError
      | .daggered j => .ok (h.getD j default).data
      | .controlled _ => .error .runtimeError := by
  induction k generalizing i with
  | zero => omega
  | succ k ih =>
    unfold evalRead innermost
    rw [hl]
    split
    · rename_i hj; simp only [hj]
    · rename_i j hj
      obtain ⟨hji, hd⟩ := (hg i hi).1 j (by rw [hj]; rfl)
      simpa only [hj] using ih j (by omega) (by omega)
    · rename_i j hj; simp only [hj]

/-- A box that is finished reads as its substituted data. -/
theorem evalRead_fin {ρ : Sym R → Option R} {g h : Heap R} (hg : Made g) (I : Inv ρ g h) (k i : Nat) (hi : i < g.length) (hk : i < k) (hf : Fin g h (innermost h k i)) :
    ∃ d, (g.getD i default).data.subst ρ = some d ∧ evalRead h k i = .ok d := by
  obtain ⟨hle, hnc, hd⟩ := innermost_spec hg h I.link k i hi hk
  rw [evalRead_innermost hg h I.link k i hi hk]
  unfold Fin at hf
  split at hf
  · rename_i hl
    have hacc : (accessFree h (innermost h k i)).1 = [] := by
      unfold accessFree
      split
      · rename_i c hc; exact hf.2 c hc
      · exact hf.1
    rw [if_pos hacc]
    exact ⟨_, by rw [← hd]; exact I.subst _ hf.1, rfl⟩
  · rename_i j hl
    obtain ⟨hjl, hdj⟩ := (hg _ (Nat.lt_of_le_of_lt hle hi)).1 j (by rw [hl]; rfl)
    exact ⟨_, by rw [← hd, hdj]; exact I.subst _ hf, rfl⟩
  · exact hf.elim

theorem setData_len (h : Heap R) (v : Data R) (k i : Nat) : (setData h v k i).length = h.length := by
  induction k generalizing i with
  | zero => simp [setData]
  | succ k ih =>
    unfold setData
    split
    · simp
    · simp [ih]
    · simp [ih]

/-- Assigning to a box that is not controlled assigns to it and to the box it daggers. -/
theorem setData_getD {g h : Heap R} (hg : Made g) (hlen : h.length = g.length) (hl : ∀ i, (h.getD i default).link = (g.getD i default).link) (v : Data R) (b : Nat) (hb : b < g.length)
    (hnc : ∀ j, (g.getD b default).link ≠ .controlled j) (k : Nat) :
    (setData h v (b + 1) b).getD k default =
      if k = b ∨ (g.getD b default).link = .daggered k then { h.getD k default with data := v } else h.getD k default := by
  unfold setData
  rw [hl]
  split
  · rename_i hL
    rw [getD_set _ _ _ _ (by omega)]
    by_cases hk : k = b
    · subst hk; simp
    · rw [if_neg hk, if_neg]
      rintro (h | h)
      · exact hk h
      · rw [hL] at h; cases h
  · rename_i j hL; exact absurd hL (hnc j)
  · rename_i j hL
    obtain ⟨hjb, _⟩ := (hg b hb).1 j (by rw [hL]; rfl)
    have hjl := (hg b hb).2.1 j hL
    obtain ⟨b', rfl⟩ : ∃ b', b = b' + 1 := ⟨b - 1, by omega⟩
    have hset : setData h v (b' + 1) j = h.set j { h.getD j default with data := v } := by
      unfold setData
      rw [hl, hjl]
    simp only [hset]
    rw [getD_set _ _ _ _ (by simp; omega)]
    by_cases hk : k = b' + 1
    · subst hk
      simp only [true_or, if_true]
      rw [getD_set _ _ _ _ (by omega), if_neg (by omega)]
    · rw [if_neg hk, getD_set _ _ _ _ (by omega)]
      by_cases hkj : k = j
      · subst hkj; rw [if_pos rfl, if_pos (Or.inr hL)]
      · rw [if_neg hkj, if_neg]
        rintro (h | h)
        · exact hk h
        · rw [hL] at h; exact hkj (by simpa using h.symm)

/-- The step of the loop on a box whose symbol is known. -/
theorem subsBox_ok {symbols : List (Sym R)} {weights : List R} {g h : Heap R} (hg : Made g) (I : Inv (param symbols weights) g h) (i : Nat) (hi : i < g.length)
    {e : Data R} (hknown : (g.getD i default).data.subst (param symbols weights) = some e) :
    ∃ h', subsBox symbols weights h i = .ok h' ∧ Step (param symbols weights) g h h' ∧ Fin g h' (innermost g (i + 1) i) ∧
      ∀ k, k ≠ i → k ≠ innermost g (i + 1) i → (g.getD (innermost g (i + 1) i) default).link ≠ .daggered k → h'.getD k default = h.getD k default := by
  have hih : i < h.length := by rw [I.len]; exact hi
  have S1 := access_step I i hih
  have hin : ∀ h' : Heap R, (∀ i, (h'.getD i default).link = (g.getD i default).link) → ∀ k i, innermost h' k i = innermost g k i := by
    intro h' hl k
    induction k with
    | zero => intro i; rfl
    | succ k ih => intro i; unfold innermost; rw [hl]; split <;> simp [ih]
  obtain ⟨hble, hnc, hbd⟩ := innermost_spec hg g (fun _ => rfl) (i + 1) i hi (by omega)
  have hb : innermost g (i + 1) i < g.length := by omega
  generalize hbdef : innermost g (i + 1) i = b at *
  unfold subsBox
  rcases hacc : accessFree h i with ⟨f, h1⟩
  have hf : (accessFree h i).1 = f := by rw [hacc]
  have hh1 : (accessFree h i).2 = h1 := by rw [hacc]
  rw [hh1] at S1
  simp only
  -- boxes without symbols from the start are finished
  have finv : ∀ h' : Heap R, Inv (param symbols weights) g h' → (g.getD b default).data.free = [] → Fin g h' b := by
    intro h' I' hz
    have hfr : ∀ k, (g.getD k default).data.free = [] → (h'.getD k default).data.free = [] := by
      intro k hk
      rcases I'.data k with e | e
      · rw [e]; exact hk
      · exact free_of_subst e
    unfold Fin
    split
    · refine ⟨hfr b hz, fun c hc => ?_⟩
      rcases I'.cache b c hc with e | e
      · rw [e]; exact hz
      · exact e.1
    · rename_i j hj
      obtain ⟨_, hdj⟩ := (hg b hb).1 j (by rw [hj]; rfl)
      exact hfr j (by rw [← hdj]; exact hz)
    · rename_i j hj; exact hnc j hj
  by_cases hf0 : f = []
  · rw [if_pos hf0]
    refine ⟨h1, rfl, S1, ?_, ?_⟩
    · rcases access_fst I i with e | e
      · apply finv h1 S1.inv
        rw [hbd, ← e, hf, hf0]
      · by_cases hz : (g.getD b default).data.free = []
        · exact finv h1 S1.inv hz
        · have hbi : b = i := by
            rw [← hbdef]
            unfold innermost
            split
            · rename_i j hj
              exfalso
              apply hz
              rw [hbd, ← I.ctrl i j hj]; exact e.2
            · rfl
          subst hbi
          unfold Fin
          split
          · refine ⟨by rw [← hh1, (access_getD h b b).1]; exact e.2, fun c hc => ?_⟩
            rw [← hh1, access_cache h b hih, hf, hf0] at hc
            simpa using hc.symm
          · rename_i j hj
            rw [← hh1, (access_getD h b j).1]
            exact I.down b j hj e.2
          · rename_i j hj; exact hnc j hj
    · intro k hk _ _
      rw [← hh1]; exact (access_getD h i k).2.2 hk
  · rw [if_neg hf0]
    have hbh1 : b < h1.length := by rw [S1.inv.len]; exact hb
    have S2 := access_step S1.inv b hbh1
    rw [hin h1 S1.inv.link, hbdef]
    rcases hacc2 : accessFree h1 b with ⟨syms, h2⟩
    have hf2 : (accessFree h1 b).1 = syms := by rw [hacc2]
    have hh2 : (accessFree h1 b).2 = h2 := by rw [hacc2]
    rw [hh2] at S2
    simp only
    rw [← hbd] at hknown
    -- the new value
    have hval : ∃ values, lookups symbols weights syms = .ok values ∧ lambdifyNum syms values (h2.getD b default).data = .ok e := by
      have hold : (h2.getD b default).data.free = [] → (h2.getD b default).data = e := by
        intro hz
        have := S2.inv.subst b hz
        rw [hknown] at this
        exact (Option.some.inj this).symm
      have hconst : ∀ values, (h2.getD b default).data.free = [] → lambdifyNum syms values (h2.getD b default).data = .ok e := by
        intro values hz
        rw [← hold hz]
        cases hd : (h2.getD b default).data with
        | value x => rfl
        | symbol s => rw [hd] at hz; simp [Data.free] at hz
      rcases access_fst S1.inv b with e1 | e1
      · rw [hf2] at e1
        cases hgd : (g.getD b default).data with
        | value x => exact ⟨[], by rw [e1, hgd]; rfl, hconst [] (by
            rcases S2.inv.data b with e2 | e2
            · rw [e2, hgd]; rfl
            · exact free_of_subst e2)⟩
        | symbol s =>
          rw [hgd] at e1 hknown
          simp only [Data.subst, Option.map_eq_some_iff] at hknown
          obtain ⟨v, hv, rfl⟩ := hknown
          refine ⟨[v], by rw [e1]; simp [Data.free, lookups, hv], ?_⟩
          rcases S2.inv.data b with e2 | e2
          · rw [e2, hgd, e1]
            simp only [Data.free, lambdifyNum, List.findIdx?_cons, decide_true, cond_true, List.getElem?_cons_zero]
            simp only [if_true, List.getElem?_cons_zero, Except.ok.injEq, Data.value.injEq, Option.some.injEq, ne_eq, ite_not]
            split
            · rename_i h1; rw [h1, one_mul]
            · rfl
          · exact hconst _ (free_of_subst e2)
      · rw [hf2] at e1
        refine ⟨[], by rw [e1.1]; rfl, hconst [] ?_⟩
        rw [← hh2, (access_getD h1 b b).1]; exact e1.2
    obtain ⟨values, hlk, hlam⟩ := hval
    rw [hlk]
    simp only
    rw [hlam]
    simp only
    have hG := setData_getD hg S2.inv.len S2.inv.link e b hb hnc
    have hcache : ((setData h2 e (b + 1) b).getD b default).cache = some syms := by
      rw [hG b, if_pos (Or.inl rfl)]
      rw [← hh2, access_cache h1 b hbh1, hf2]
    have hblen : b < (setData h2 e (b + 1) b).length := by rw [setData_len, S2.inv.len]; exact hb
    unfold delFree
    rw [hcache]
    simp only
    refine ⟨_, rfl, ?_, ?_, ?_⟩
    · -- the step
      have hfe : e.free = [] := free_of_subst hknown
      have hD : ∀ k, ((List.set (setData h2 e (b + 1) b) b { (setData h2 e (b + 1) b).getD b default with cache := none }).getD k default).data =
          if k = b ∨ (g.getD b default).link = .daggered k then e else (h2.getD k default).data := by
        intro k
        rw [getD_set _ _ _ _ hblen]
        by_cases hk : k = b
        · subst hk; rw [if_pos rfl, hG]; simp
        · rw [if_neg hk, hG]; split <;> rfl
      have hC : ∀ k c, ((List.set (setData h2 e (b + 1) b) b { (setData h2 e (b + 1) b).getD b default with cache := none }).getD k default).cache = some c →
          (h2.getD k default).cache = some c := by
        intro k c
        rw [getD_set _ _ _ _ hblen]
        by_cases hk : k = b
        · rw [if_pos hk]; intro hc; cases hc
        · rw [if_neg hk, hG]
          split <;> exact fun hc => hc
      have hE : ∀ k, (k = b ∨ (g.getD b default).link = .daggered k) → (g.getD k default).data.subst (param symbols weights) = some e := by
        rintro k (rfl | hk)
        · exact hknown
        · obtain ⟨_, hdj⟩ := (hg b hb).1 k (by rw [hk]; rfl)
          rw [← hdj]; exact hknown
      refine (S1.trans S2).trans ⟨⟨by rw [List.length_set, setData_len, S2.inv.len], ?_, ?_, ?_, ?_, ?_⟩, ?_, ?_⟩
      · intro k
        rw [getD_set _ _ _ _ hblen]
        by_cases hk : k = b
        · subst hk; rw [if_pos rfl, hG, if_pos (Or.inl rfl)]; exact S2.inv.link k
        · rw [if_neg hk, hG, ← S2.inv.link k]; split <;> rfl
      · intro k
        rw [hD]
        split
        · rename_i hk; exact Or.inr (hE k hk)
        · exact S2.inv.data k
      · intro k c hc
        rw [hD]
        rcases S2.inv.cache k c (hC k c hc) with e1 | e1
        · exact Or.inl e1
        · refine Or.inr ⟨e1.1, ?_⟩
          split
          · exact hfe
          · exact e1.2
      · intro k j hk
        rw [hD]
        split
        · rename_i hk'
          rcases hk' with rfl | hk'
          · exact absurd hk (hnc j)
          · rw [(hg b hb).2.1 k hk'] at hk; cases hk
        · exact S2.inv.ctrl k j hk
      · intro k j hk hz
        rw [hD] at hz ⊢
        split
        · exact hfe
        · rename_i hj
          split at hz
          · rename_i hk'
            rcases hk' with rfl | hk'
            · exact absurd (Or.inr hk) hj
            · rw [(hg b hb).2.1 k hk'] at hk; cases hk
          · exact S2.inv.down k j hk hz
      · intro k hz
        rw [hD]
        split
        · rename_i hk
          have := S2.inv.subst k hz
          rw [hE k hk] at this
          exact Option.some.inj this
        · rfl
      · intro k hz hc c hc'
        exact hc c (hC k c hc')
    · -- finished
      have hfe : e.free = [] := free_of_subst hknown
      unfold Fin
      split
      · rw [getD_set _ _ _ _ hblen, if_pos rfl]
        refine ⟨?_, by simp⟩
        show (((setData h2 e (b + 1) b).getD b default).data).free = []
        rw [hG, if_pos (Or.inl rfl)]; exact hfe
      · rename_i j hj
        obtain ⟨hjb, _⟩ := (hg b hb).1 j (by rw [hj]; rfl)
        rw [getD_set _ _ _ _ hblen, if_neg (by omega), hG, if_pos (Or.inr hj)]; exact hfe
      · rename_i j hj; exact hnc j hj
    · intro k hki hkb hkd
      rw [getD_set _ _ _ _ hblen, if_neg hkb, hG, if_neg (by rintro (h | h); exact hkb h; exact hkd h)]
      rw [← hh2, (access_getD h1 b k).2.2 hkb, ← hh1, (access_getD h i k).2.2 hki]

/-- The step of the loop on a box whose symbol has no weight. -/
theorem subsBox_unknown {symbols : List (Sym R)} {weights : List R} {g h : Heap R} (hg : Made g) (I : Inv (param symbols weights) g h) (i : Nat) (hi : i < g.length)
    (hun : (g.getD i default).data.subst (param symbols weights) = none) : subsBox symbols weights h i = .error .keyError := by
  have hih : i < h.length := by rw [I.len]; exact hi
  have S1 := access_step I i hih
  obtain ⟨hble, hnc, hbd⟩ := innermost_spec hg (accessFree h i).2 S1.inv.link (i + 1) i hi (by omega)
  have free : ∀ h' : Heap R, Inv (param symbols weights) g h' → ∀ k, (g.getD k default).data = (g.getD i default).data → (accessFree h' k).1 = (g.getD i default).data.free := by
    intro h' I' k hk
    rcases access_fst I' k with e | e
    · rw [e, hk]
    · have := I'.subst k e.2
      rw [hk, hun] at this; cases this
  unfold subsBox
  rcases hacc : accessFree h i with ⟨f, h1⟩
  have hf := free h I i rfl
  have hs := free _ S1.inv _ hbd
  rw [hacc] at hf hs S1
  simp only at hf hs S1 ⊢
  cases hd : (g.getD i default).data with
  | value x => rw [hd] at hun; cases hun
  | symbol s =>
    rw [hd] at hf hs hun
    simp only [Data.subst, Option.map_eq_none_iff] at hun
    rw [hf, if_neg (by simp [Data.free])]
    rcases hacc2 : accessFree h1 (innermost h1 (i + 1) i) with ⟨syms, h2⟩
    rw [hacc2] at hs
    simp only at hs ⊢
    rw [hs]
    simp [Data.free, lookups, hun]

/-- The whole loop. -/
theorem subsLoop_ok {symbols : List (Sym R)} {weights : List R} {g : Heap R} (hg : Made g) (is : List Nat) (his : ∀ i ∈ is, i < g.length)
    (hknown : ∀ i ∈ is, (g.getD i default).data.subst (param symbols weights) ≠ none) {h : Heap R} (I : Inv (param symbols weights) g h) :
    ∃ h', subsLoop symbols weights h is = .ok h' ∧ Step (param symbols weights) g h h' ∧ (∀ i ∈ is, Fin g h' (innermost g (i + 1) i)) ∧
      ∀ n, (∀ i, n ≤ i → i < g.length → ∀ j, (g.getD i default).link.next = some j → n ≤ j) → (∀ i ∈ is, n ≤ i) → ∀ k, k < n → h'.getD k default = h.getD k default := by
  induction is generalizing h with
  | nil => exact ⟨h, rfl, Step.refl I, by simp, fun _ _ _ _ _ => rfl⟩
  | cons i is ih =>
    obtain ⟨e, he⟩ := Option.ne_none_iff_exists'.mp (hknown i (by simp))
    obtain ⟨h1, hr1, S1, F1, U1⟩ := subsBox_ok hg I i (his i (by simp)) he
    obtain ⟨h2, hr2, S2, F2, U2⟩ := ih (fun k hk => his k (by simp [hk])) (fun k hk => hknown k (by simp [hk])) S1.inv
    refine ⟨h2, by simp [subsLoop, hr1, hr2], S1.trans S2, ?_, ?_⟩
    · intro k hk
      rcases List.mem_cons.mp hk with rfl | hk
      · exact S2.fin F1
      · exact F2 k hk
    · intro n hn hge k hk
      rw [U2 n hn (fun i hi => hge i (by simp [hi])) k hk]
      have hin : ∀ m i, n ≤ i → i < g.length → i < m → n ≤ innermost g m i := by
        intro m
        induction m with
        | zero => intro i _ _ hm; omega
        | succ m ihm =>
          intro i hni hil him
          unfold innermost
          split
          · rename_i j hj
            have hjn := hn i hni hil j (by rw [hj]; rfl)
            obtain ⟨hji, _⟩ := (hg i hil).1 j (by rw [hj]; rfl)
            exact ihm j hjn (by omega) (by omega)
          · exact hni
      have hni := hge i (by simp)
      have hil := his i (by simp)
      have hbn := hin (i + 1) i hni hil (by omega)
      have hbl := (innermost_spec hg g (fun _ => rfl) (i + 1) i hil (by omega)).1
      refine U1 k (by omega) (by omega) ?_
      intro hd
      have := hn _ hbn (by omega) k (by rw [hd]; rfl)
      omega

theorem subsLoop_unknown {symbols : List (Sym R)} {weights : List R} {g : Heap R} (hg : Made g) (is : List Nat) (his : ∀ i ∈ is, i < g.length)
    (hun : ∃ i ∈ is, (g.getD i default).data.subst (param symbols weights) = none) {h : Heap R} (I : Inv (param symbols weights) g h) :
    subsLoop symbols weights h is = .error .keyError := by
  induction is generalizing h with
  | nil => simp at hun
  | cons i is ih =>
    cases he : (g.getD i default).data.subst (param symbols weights) with
    | none => simp [subsLoop, subsBox_unknown hg I i (his i (by simp)) he]
    | some e =>
      obtain ⟨h1, hr1, S1, _, _⟩ := subsBox_ok hg I i (his i (by simp)) he
      obtain ⟨k, hk, hku⟩ := hun
      rcases List.mem_cons.mp hk with rfl | hk
      · rw [he] at hku; cases hku
      · simp only [subsLoop, hr1]
        exact ih (fun k hk => his k (by simp [hk])) ⟨k, hk, hku⟩ S1.inv

theorem Inv.start {g : Heap R} (hg : Made g) (ρ : Sym R → Option R) : Inv ρ g g where
  len := rfl
  link _ := rfl
  data _ := Or.inl rfl
  cache i c hc := by
    by_cases hi : i < g.length
    · exact Or.inl ((hg i hi).2.2 c hc)
    · rw [List.getD_eq_getElem?_getD, List.getElem?_eq_none (by omega)] at hc; cases hc
  ctrl _ _ _ := rfl
  down i j hj hz := by
    by_cases hi : i < g.length
    · rw [← ((hg i hi).1 j (by rw [hj]; rfl)).2]; exact hz
    · rw [List.getD_eq_getElem?_getD, List.getElem?_eq_none (by omega)] at hj; cases hj

theorem deepcopy_lo (h : Heap R) (i : Nat) (hi : i < h.length) : (deepcopy h).getD i default = h.getD i default := by
  rw [deepcopy, List.getD_eq_getElem?_getD, List.getElem?_append_left hi, List.getD_eq_getElem?_getD]

theorem deepcopy_hi (h : Heap R) (i : Nat) (hi : i < h.length) : (deepcopy h).getD (h.length + i) default = (h.getD i default).shift h.length := by
  rw [deepcopy, List.getD_eq_getElem?_getD, List.getElem?_append_right (by omega)]
  simp [hi, List.getD_eq_getElem?_getD]

theorem shift_next (n : Nat) (o : Obj R) (j : Nat) : (o.shift n).link.next = some j ↔ ∃ j', j = n + j' ∧ o.link.next = some j' := by
  obtain ⟨L, d, c⟩ := o
  cases L with
  | leaf => simp [Obj.shift, Link.next]
  | controlled i => simp [Obj.shift, Link.next, eq_comm]
  | daggered i => simp [Obj.shift, Link.next, eq_comm]

theorem shift_daggered (n : Nat) (o : Obj R) (j : Nat) : (o.shift n).link = .daggered (n + j) → o.link = .daggered j := by
  obtain ⟨L, d, c⟩ := o
  cases L <;> simp [Obj.shift]

theorem shift_leaf (n : Nat) (o : Obj R) : o.link = .leaf → (o.shift n).link = .leaf := by
  obtain ⟨L, d, c⟩ := o
  cases L <;> simp [Obj.shift]

theorem deepcopy_made {h : Heap R} (hm : Made h) : Made (deepcopy h) := by
  intro i hi
  have hlen : (deepcopy h).length = h.length + h.length := by simp [deepcopy]
  rw [hlen] at hi
  by_cases hl : i < h.length
  · rw [deepcopy_lo h i hl]
    refine ⟨fun j hj => ?_, fun j hj => ?_, (hm i hl).2.2⟩
    · obtain ⟨h1, h2⟩ := (hm i hl).1 j hj
      rw [deepcopy_lo h j (by omega)]; exact ⟨h1, h2⟩
    · have h1 := ((hm i hl).1 j (by rw [hj]; rfl)).1
      rw [deepcopy_lo h j (by omega)]; exact (hm i hl).2.1 j hj
  · obtain ⟨k, rfl⟩ : ∃ k, i = h.length + k := ⟨i - h.length, by omega⟩
    have hk : k < h.length := by omega
    rw [deepcopy_hi h k hk]
    have hlink : ∀ j, ((h.getD k default).shift h.length).link.next = some j → ∃ j', j = h.length + j' ∧ (h.getD k default).link.next = some j' := by
      intro j hj
      exact (shift_next _ _ _).mp hj
    refine ⟨fun j hj => ?_, fun j hj => ?_, (hm k hk).2.2⟩
    · obtain ⟨j', rfl, hj'⟩ := hlink j hj
      obtain ⟨h1, h2⟩ := (hm k hk).1 j' hj'
      rw [deepcopy_hi h j' (by omega)]
      exact ⟨by omega, h2⟩
    · obtain ⟨j', rfl, hj'⟩ := hlink j (by rw [hj]; rfl)
      have h1 := ((hm k hk).1 j' hj').1
      rw [deepcopy_hi h j' (by omega)]
      exact shift_leaf _ _ ((hm k hk).2.1 j' (shift_daggered _ _ _ hj))

/-- **C79 (weights into circuits).** For every heap of boxes that the constructors build — with any sharing of box objects between positions, diagrams, controlled and daggered boxes, and
with `free_symbols` cached anywhere — and every list of diagrams whose symbols all have a weight: `_fast_subs` returns diagrams of the same shape whose boxes evaluate to the scale times the
weight of their symbol (and to their own number if they have none), and no object of the caller is changed. -/
theorem C79_fast_subs {symbols : List (Sym R)} {weights : List R} {h : Heap R} (hm : Made h) {diagrams : List (List Nat)}
    (hr : ∀ d ∈ diagrams, ∀ r ∈ d, r < h.length)
    (hknown : ∀ d ∈ diagrams, ∀ r ∈ d, (h.getD r default).data.subst (param symbols weights) ≠ none) :
    ∃ h', fastSubs symbols weights h diagrams = .ok (h', diagrams.map (·.map (h.length + ·))) ∧
      h'.take h.length = h ∧
      (∀ k, k < h.length → (h'.getD (h.length + k) default).link = ((h.getD k default).shift h.length).link) ∧
      ∀ d ∈ diagrams, ∀ r ∈ d, ∃ e, (h.getD r default).data.subst (param symbols weights) = some e ∧
        evalRead h' (h.length + r + 1) (h.length + r) = .ok e := by
  have hg := deepcopy_made hm
  have hlen : (deepcopy h).length = h.length + h.length := by simp [deepcopy]
  have hmem : ∀ i, i ∈ (diagrams.map (·.map (h.length + ·))).flatten ↔ ∃ d ∈ diagrams, ∃ r ∈ d, h.length + r = i := by
    intro i; simp [List.mem_flatten]
  obtain ⟨h', hrun, S, F, U⟩ := subsLoop_ok hg (symbols := symbols) (weights := weights) (diagrams.map (·.map (h.length + ·))).flatten (by
      intro i hi
      obtain ⟨d, hd, r, hr', rfl⟩ := (hmem i).mp hi
      have := hr d hd r hr'; omega) (by
      intro i hi
      obtain ⟨d, hd, r, hr', rfl⟩ := (hmem i).mp hi
      rw [deepcopy_hi h r (hr d hd r hr')]
      exact hknown d hd r hr') (Inv.start hg _)
  refine ⟨h', by simp [fastSubs, hrun], ?_, ?_, ?_⟩
  · have hU := U h.length (by
      intro i hi hil j hj
      obtain ⟨k, rfl⟩ : ∃ k, i = h.length + k := ⟨i - h.length, by omega⟩
      rw [deepcopy_hi h k (by omega)] at hj
      obtain ⟨j', rfl, _⟩ := (shift_next _ _ _).mp hj
      omega) (by
      intro i hi
      obtain ⟨d, hd, r, hr', rfl⟩ := (hmem i).mp hi; omega)
    apply List.ext_getElem?
    intro k
    have hl' : h'.length = h.length + h.length := by rw [S.inv.len, hlen]
    by_cases hk : k < h.length
    · have h1 := hU k hk
      rw [deepcopy_lo h k hk, List.getD_eq_getElem?_getD, List.getD_eq_getElem?_getD, List.getElem?_eq_getElem hk,
        List.getElem?_eq_getElem (show k < h'.length by omega)] at h1
      simp only [Option.getD_some] at h1
      rw [List.getElem?_take, if_pos hk, List.getElem?_eq_getElem hk, List.getElem?_eq_getElem (show k < h'.length by omega), h1]
    · rw [List.getElem?_take, if_neg hk, List.getElem?_eq_none (by omega)]
  · intro k hk
    rw [S.inv.link, deepcopy_hi h k hk]
  · intro d hd r hr'
    have hrl := hr d hd r hr'
    have hF := F (h.length + r) ((hmem _).mpr ⟨d, hd, r, hr', rfl⟩)
    have hin : ∀ k i, innermost h' k i = innermost (deepcopy h) k i := by
      intro k
      induction k with
      | zero => intro i; rfl
      | succ k ih => intro i; unfold innermost; rw [S.inv.link]; split <;> simp [ih]
    obtain ⟨e, he, hev⟩ := evalRead_fin hg S.inv (h.length + r + 1) (h.length + r) (by omega) (by omega) (by rw [hin]; exact hF)
    exact ⟨e, by rw [deepcopy_hi h r hrl] at he; exact he, hev⟩

/-- **C79 (unknown symbols).** If some box has a symbol without a weight, the call raises KeyError. -/
theorem C79_unknown {symbols : List (Sym R)} {weights : List R} {h : Heap R} (hm : Made h) {diagrams : List (List Nat)}
    (hr : ∀ d ∈ diagrams, ∀ r ∈ d, r < h.length)
    (hun : ∃ d ∈ diagrams, ∃ r ∈ d, (h.getD r default).data.subst (param symbols weights) = none) :
    fastSubs symbols weights h diagrams = .error .keyError := by
  have hg := deepcopy_made hm
  have hlen : (deepcopy h).length = h.length + h.length := by simp [deepcopy]
  have hmem : ∀ i, i ∈ (diagrams.map (·.map (h.length + ·))).flatten ↔ ∃ d ∈ diagrams, ∃ r ∈ d, h.length + r = i := by
    intro i; simp [List.mem_flatten]
  have := subsLoop_unknown hg (symbols := symbols) (weights := weights) (diagrams.map (·.map (h.length + ·))).flatten (by
      intro i hi
      obtain ⟨d, hd, r, hr', rfl⟩ := (hmem i).mp hi
      have := hr d hd r hr'; omega) (by
      obtain ⟨d, hd, r, hr', hu⟩ := hun
      exact ⟨h.length + r, (hmem _).mpr ⟨d, hd, r, hr', rfl⟩, by rw [deepcopy_hi h r (hr d hd r hr')]; exact hu⟩) (Inv.start hg _)
  simp [fastSubs, this]

/-- **C79 (weights go with the symbols by position).** The weight of the symbol at position `i` of `model.symbols` is the weight at position `i`; other symbols have none. -/
theorem C79_param {symbols : List (Sym R)} {weights : List R} (hn : symbols.Nodup) (hl : symbols.length = weights.length) :
    (∀ (i : Nat) (hi : i < symbols.length), param symbols weights symbols[i] = weights[i]?) ∧ (∀ s, s ∉ symbols → param symbols weights s = none) := by
  constructor
  · intro i hi
    have hiw : i < weights.length := by omega
    unfold param
    rw [List.getElem?_eq_getElem hiw]
    have hmem : (symbols[i], weights[i]) ∈ (symbols.zip weights).reverse := by
      rw [List.mem_reverse, List.mem_iff_getElem]
      exact ⟨i, by simp; omega, by simp⟩
    cases hf : (symbols.zip weights).reverse.find? (fun p => decide (p.1 = symbols[i])) with
    | none =>
      have := List.find?_eq_none.mp hf _ hmem
      simp at this
    | some p =>
      have hp := List.find?_some hf
      have hpm := List.mem_of_find?_eq_some hf
      rw [List.mem_reverse, List.mem_iff_getElem] at hpm
      obtain ⟨j, hj, rfl⟩ := hpm
      simp only [List.length_zip] at hj
      simp only [List.getElem_zip, decide_eq_true_eq] at hp
      have : j = i := (List.Nodup.getElem_inj_iff hn).mp hp
      subst this
      simp
  · intro s hs
    unfold param
    rw [Option.map_eq_none_iff, List.find?_eq_none]
    intro p hp
    have : p.1 ∈ symbols := by
      rw [List.mem_reverse] at hp
      exact (List.of_mem_zip hp).1
    simp only [decide_eq_true_eq]
    intro h; exact hs (h ▸ this)

/-- A heap with sharing: a rotation by `-2a`, a controlled version of it, a doubly controlled version, a box with the symbol `b` whose symbols are cached, its dagger, and a constant. -/
def exHeap : Heap ℚ :=
  [⟨.leaf, .symbol ⟨"a", 1, 1, -2⟩, none⟩, ⟨.controlled 0, .symbol ⟨"a", 1, 1, -2⟩, some [⟨"a", 1, 1, 1⟩]⟩, ⟨.controlled 1, .symbol ⟨"a", 1, 1, -2⟩, none⟩,
   ⟨.leaf, .symbol ⟨"b", 1, 1, 1⟩, some [⟨"b", 1, 1, 1⟩]⟩, ⟨.daggered 3, .symbol ⟨"b", 1, 1, 1⟩, none⟩, ⟨.leaf, .value (some 7), none⟩]

theorem exHeap_made : Made exHeap := by
  intro i hi
  have hi' : i < 6 := hi
  have : i = 0 ∨ i = 1 ∨ i = 2 ∨ i = 3 ∨ i = 4 ∨ i = 5 := by omega
  rcases this with rfl | rfl | rfl | rfl | rfl | rfl <;> simp [exHeap, Link.next, Data.free, Sym.unscaled]

example : ∃ h', fastSubs [⟨"a", 1, 1, 1⟩, ⟨"b", 1, 1, 1⟩] [3, 5] exHeap [[4, 2, 0, 5], [3, 1, 0]] = .ok (h', [[10, 8, 6, 11], [9, 7, 6]]) ∧
    h'.take 6 = exHeap ∧ evalRead h' 9 8 = .ok (.value (some (-6))) ∧ evalRead h' 11 10 = .ok (.value (some 5)) := by
  refine ⟨_, rfl, ?_, ?_, ?_⟩ <;> decide +kernel
example : fastSubs [⟨"b", 1, 1, 1⟩] [5] exHeap [[4, 2]] = .error .keyError := by decide +kernel

/-! ## The model for tensor diagrams -/

/-- The body of the loop of `PytorchModel.get_diagram_output`, pytorch_model.py:165-172: only `isinstance(b.data, Symbol)` is looked at, and the symbol itself, with its scale, is looked up. -/
def torchBox (symbols : List (Sym R)) (weights : List R) (h : Heap R) (i : Nat) : Except PyErr (Heap R) :=
  match (h.getD i default).data with
  | .value _ => .ok h
  | .symbol s => match param symbols weights s with
    | none => .error .keyError
    | some v => .ok (setData h (.value (some v)) (i + 1) i)

/-- The loop over the boxes of all diagrams, pytorch_model.py:164-165. -/
def torchLoop (symbols : List (Sym R)) (weights : List R) : Heap R → List Nat → Except PyErr (Heap R)
  | h, [] => .ok h
  | h, i :: is => match torchBox symbols weights h i with
    | .error e => .error e
    | .ok h' => torchLoop symbols weights h' is

/-- The data that the array of a tensor box is computed from: its own, or that of the box it daggers (tensor.py:175-194, 596-620). -/
def torchRead (h : Heap R) (i : Nat) : Data R :=
  match (h.getD i default).link with
  | .daggered j => (h.getD j default).data
  | _ => (h.getD i default).data

/-- What holds while that loop runs on a heap that was `g` at the start. -/
structure TInv (ρ : Sym R → Option R) (g h : Heap R) : Prop where
  len : h.length = g.length
  link : ∀ i, (h.getD i default).link = (g.getD i default).link
  data : ∀ i, (h.getD i default).data = (g.getD i default).data ∨ (g.getD i default).data.subst ρ = some (h.getD i default).data
  down : ∀ i j, (g.getD i default).link = .daggered j → (h.getD i default).data.free = [] → (h.getD j default).data.free = []

theorem torchLoop_ok {symbols : List (Sym R)} {weights : List R} {g : Heap R} (hg : Made g) (hnc : ∀ i j, (g.getD i default).link ≠ .controlled j)
    (hsc : ∀ i s, (g.getD i default).data = .symbol s → s.scale = 1) (is : List Nat) (his : ∀ i ∈ is, i < g.length)
    (hknown : ∀ i ∈ is, (g.getD i default).data.subst (param symbols weights) ≠ none) {h : Heap R} (I : TInv (param symbols weights) g h) :
    ∃ h', torchLoop symbols weights h is = .ok h' ∧ TInv (param symbols weights) g h' ∧
      (∀ i, (h.getD i default).data.free = [] → (h'.getD i default).data.free = []) ∧ (∀ i ∈ is, (h'.getD i default).data.free = []) := by
  induction is generalizing h with
  | nil => exact ⟨h, rfl, I, fun _ hi => hi, by simp⟩
  | cons i is ih =>
    obtain ⟨e, he⟩ := Option.ne_none_iff_exists'.mp (hknown i (by simp))
    have hil := his i (by simp)
    have hbox : ∃ h1, torchBox symbols weights h i = .ok h1 ∧ TInv (param symbols weights) g h1 ∧
        (∀ k, (h.getD k default).data.free = [] → (h1.getD k default).data.free = []) ∧ (h1.getD i default).data.free = [] := by
      unfold torchBox
      cases hd : (h.getD i default).data with
      | value x => exact ⟨h, rfl, I, fun _ hk => hk, by rw [hd]; rfl⟩
      | symbol s =>
        have hgd : (g.getD i default).data = .symbol s := by
          rcases I.data i with e1 | e1
          · rw [← e1, hd]
          · have := free_of_subst e1
            rw [hd] at this; simp [Data.free] at this
        have hun : s.unscaled = s := by
          have := hsc i s hgd
          cases s; simp only [Sym.unscaled] at *; rw [this]
        rw [hgd] at he
        simp only [Data.subst, Option.map_eq_some_iff, hun] at he
        obtain ⟨v, hv, rfl⟩ := he
        have hG := setData_getD hg I.len I.link (.value (some v)) i hil (hnc i)
        have hE : ∀ k, (k = i ∨ (g.getD i default).link = .daggered k) → (g.getD k default).data.subst (param symbols weights) = some (.value (some v)) := by
          intro k hk
          have : (g.getD k default).data = .symbol s := by
            rcases hk with rfl | hk
            · exact hgd
            · rw [← ((hg i hil).1 k (by rw [hk]; rfl)).2]; exact hgd
          rw [this]
          simp [Data.subst, hun, hv, hsc i s hgd]
        simp only [hv]
        refine ⟨_, rfl, ⟨by rw [setData_len, I.len], ?_, ?_, ?_⟩, ?_, ?_⟩
        · intro k; rw [hG, ← I.link k]; split <;> rfl
        · intro k
          rw [hG]
          split
          · rename_i hk; exact Or.inr (hE k hk)
          · exact I.data k
        · intro k j hk hz
          rw [hG] at hz ⊢
          split
          · rfl
          · rename_i hj
            split at hz
            · rename_i hk'
              rcases hk' with rfl | hk'
              · exact absurd (Or.inr hk) hj
              · rw [(hg i hil).2.1 k hk'] at hk; cases hk
            · exact I.down k j hk hz
        · intro k hk
          rw [hG]
          split
          · rfl
          · exact hk
        · rw [hG, if_pos (Or.inl rfl)]; rfl
    obtain ⟨h1, hr1, I1, K1, F1⟩ := hbox
    obtain ⟨h2, hr2, I2, K2, F2⟩ := ih (fun k hk => his k (by simp [hk])) (fun k hk => hknown k (by simp [hk])) I1
    refine ⟨h2, by simp [torchLoop, hr1, hr2], I2, fun k hk => K2 k (K1 k hk), ?_⟩
    intro k hk
    rcases List.mem_cons.mp hk with rfl | hk
    · exact K2 _ F1
    · exact F2 k hk

/-- **C79 (weights into tensor diagrams).** The same for `PytorchModel`, when the symbols in the diagrams are not scaled: every box reads the weight of its symbol, whatever the sharing. -/
theorem C79_torch_partial {symbols : List (Sym R)} {weights : List R} {h : Heap R} (hm : Made h) (hnc : ∀ i j, (h.getD i default).link ≠ .controlled j)
    (hsc : ∀ i s, (h.getD i default).data = .symbol s → s.scale = 1) (is : List Nat) (his : ∀ i ∈ is, i < h.length)
    (hknown : ∀ i ∈ is, (h.getD i default).data.subst (param symbols weights) ≠ none) :
    ∃ h', torchLoop symbols weights h is = .ok h' ∧ ∀ i ∈ is, (h.getD i default).data.subst (param symbols weights) = some (torchRead h' i) := by
  obtain ⟨h', hr, I, _, F⟩ := torchLoop_ok (h := h) hm hnc hsc is his hknown ⟨rfl, fun _ => rfl, fun _ => Or.inl rfl, fun i j hj hz => by
    by_cases hi : i < h.length
    · rw [← ((hm i hi).1 j (by rw [hj]; rfl)).2]; exact hz
    · rw [List.getD_eq_getElem?_getD, List.getElem?_eq_none (by omega)] at hj; cases hj⟩
  have hs : ∀ i, (h'.getD i default).data.free = [] → (h.getD i default).data.subst (param symbols weights) = some (h'.getD i default).data := by
    intro i hf
    rcases I.data i with e | e
    · rw [← e]; exact subst_of_free hf
    · exact e
  refine ⟨h', hr, fun i hi => ?_⟩
  unfold torchRead
  split
  · rename_i j hj
    rw [I.link] at hj
    rw [((hm i (his i hi)).1 j (by rw [hj]; rfl)).2]
    exact hs j (I.down i j hj (F i hi))
  · exact hs i (F i hi)

example : ∃ h', torchLoop (R := ℚ) [⟨"b", 2, 1, 1⟩] [5] [⟨.leaf, .symbol ⟨"b", 2, 1, 1⟩, none⟩, ⟨.daggered 0, .symbol ⟨"b", 2, 1, 1⟩, none⟩] [1, 0] = .ok h' ∧
    torchRead h' 1 = .value (some 5) ∧ torchRead h' 0 = .value (some 5) := by
  refine ⟨_, rfl, ?_, ?_⟩ <;> decide +kernel

/-- **C79 (scaled symbols, refuted for PytorchModel).** A symbol times a factor (`2 * s`, `-s`) is listed by `free_symbols` without the factor, but looked up with it: KeyError. -/
theorem C79_refuted_torch_scaled (symbols : List (Sym R)) (weights : List R) (h : Heap R) (i : Nat) (s : Sym R) (hs : s.scale ≠ 1) (hall : ∀ t ∈ symbols, t.scale = 1)
    (hd : (h.getD i default).data = .symbol s) : torchBox symbols weights h i = .error .keyError := by
  have : param symbols weights s = none := by
    unfold param
    rw [Option.map_eq_none_iff, List.find?_eq_none]
    intro p hp
    have hm : p.1 ∈ symbols := by
      rw [List.mem_reverse] at hp
      exact (List.of_mem_zip hp).1
    simp only [decide_eq_true_eq]
    intro he; exact hs (he ▸ hall _ hm)
  unfold torchBox
  rw [hd]
  simp [this]

end FastSubs
end Lambeq
