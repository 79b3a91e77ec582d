import Verif.Training.FastSubs
import Mathlib.Data.String.Basic
import Mathlib.Data.List.Sort
import Mathlib.Analysis.SpecialFunctions.Sqrt

/-!
# The symbols and initial weights of a model (C78)

Models `lambeq/training/model.py`: `Model.from_diagrams` (158-183); `lambeq/backend/symbol.py`: `Symbol.__lt__` (85-86), `Symbol.size` (81-83);
`lambeq/training/quantum_model.py`: `initialise_weights` (88-100); `lambeq/training/pytorch_model.py`: `initialise_weights` (80-104).

A diagram is given by its `free_symbols` (tensor.py:330-332), which have scale 1. Python iterates over a set in an order that depends on hashes and insertions: the model takes
an arbitrary order. The random source is a list of numbers.
-/

namespace Lambeq
namespace ModelSymbols
open FastSubs
set_option linter.unusedSectionVars false
set_option linter.unusedSimpArgs false

variable {R : Type} [CommRing R] [LinearOrder R]

/-- `Symbol.__lt__`, symbol.py:85-86: tuples of name and scale; strings are compared by code points. -/
def symLt (s t : Sym R) : Bool := decide (s.name < t.name ∨ (s.name = t.name ∧ s.scale < t.scale))

/-- `sorted(xs)`: Python's sort is stable and only uses `<`. -/
def pySorted (xs : List (Sym R)) : List (Sym R) := xs.mergeSort (fun s t => !symLt t s)

/-- An order in which Python may iterate over `{sym for circ in diagrams for sym in circ.free_symbols}`, model.py:180-182. -/
def IterOrder (diagrams : List (List (Sym R))) (it : List (Sym R)) : Prop := it.Nodup ∧ ∀ s, s ∈ it ↔ ∃ d ∈ diagrams, s ∈ d

/-- `from_diagrams(diagrams).symbols`, model.py:179-183, when the set is iterated in the order `it`. -/
def fromDiagrams (it : List (Sym R)) : List (Sym R) := pySorted it

/-- `QuantumModel.initialise_weights`, quantum_model.py:88-100: `np.random.rand(len(self.symbols))`; `rand i` is the number drawn for position `i`. -/
def initialiseWeights (symbols : List (Sym R)) (rand : Nat → ℝ) : Except PyErr (List ℝ) :=
  if symbols = [] then .error .valueError else .ok ((List.range symbols.length).map rand)

/-- `mean(size)`, pytorch_model.py:94-99, for sizes from 1 on. -/
noncomputable def mean (size : Nat) : ℝ :=
  let cf : ℝ := if size < 6 then [3, 3, 2.6, 2, 1.6, 1.3].getD size 0 else 1 / (0.16 * size - 0.04)
  Real.sqrt (size / 3 - 1 / (15 - cf))

/-- `PytorchModel.initialise_weights`, pytorch_model.py:80-104: `rand i k` is the `k`-th number drawn for symbol `i`. -/
noncomputable def initialiseTorch (symbols : List (Sym R)) (rand : Nat → Nat → ℝ) : Except PyErr (List (List ℝ)) :=
  if symbols = [] then .error .valueError
  else .ok (symbols.zipIdx.map (fun p => (List.range (p.1.directedDom * p.1.directedCod)).map (fun k => (2 * rand p.2 k - 1) / mean p.1.directedCod)))

/-! ## Sorting -/

theorem symLe_iff (s t : Sym R) : (!symLt t s) = true ↔ s.name < t.name ∨ (s.name = t.name ∧ s.scale ≤ t.scale) := by
  simp only [symLt, Bool.not_eq_true', decide_eq_false_iff_not, not_or, not_and, not_lt]
  constructor
  · rintro ⟨h1, h2⟩
    rcases lt_or_eq_of_le h1 with h | h
    · exact Or.inl h
    · exact Or.inr ⟨h, h2 h.symm⟩
  · rintro (h | ⟨h1, h2⟩)
    · exact ⟨le_of_lt h, fun he => absurd h (by rw [he]; exact lt_irrefl _)⟩
    · exact ⟨le_of_eq h1, fun _ => h2⟩

theorem symLt_total (s t : Sym R) : ((!symLt t s) || (!symLt s t)) = true := by
  rw [Bool.or_eq_true, symLe_iff, symLe_iff]
  rcases lt_trichotomy s.name t.name with h | h | h
  · exact Or.inl (Or.inl h)
  · rcases le_total s.scale t.scale with h' | h'
    · exact Or.inl (Or.inr ⟨h, h'⟩)
    · exact Or.inr (Or.inr ⟨h.symm, h'⟩)
  · exact Or.inr (Or.inl h)

theorem symLe_trans (a b c : Sym R) (h1 : (!symLt b a) = true) (h2 : (!symLt c b) = true) : (!symLt c a) = true := by
  rw [symLe_iff] at *
  rcases h1 with h1 | ⟨h1, h1'⟩ <;> rcases h2 with h2 | ⟨h2, h2'⟩
  · exact Or.inl (lt_trans h1 h2)
  · exact Or.inl (h2 ▸ h1)
  · exact Or.inl (h1 ▸ h2)
  · exact Or.inr ⟨h1.trans h2, le_trans h1' h2'⟩

theorem pySorted_perm (xs : List (Sym R)) : (pySorted xs).Perm xs := List.mergeSort_perm _ _

theorem pySorted_sorted (xs : List (Sym R)) : (pySorted xs).Pairwise (fun s t => s.name ≤ t.name) := by
  have := List.pairwise_mergeSort (le := fun (s t : Sym R) => !symLt t s) (fun a b c => symLe_trans a b c) (fun a b => symLt_total a b) xs
  exact this.imp (fun h => by
    rcases (symLe_iff _ _).mp h with h | h
    · exact le_of_lt h
    · exact le_of_eq h.1)

/-- **C78 (symbols of a model).** `from_diagrams` lists exactly the symbols that occur in the diagrams, each once, in ascending order of their names, whatever order Python visits them in. -/
theorem C78_symbols {diagrams : List (List (Sym R))} {it : List (Sym R)} (hit : IterOrder diagrams it) :
    (∀ s, s ∈ fromDiagrams it ↔ ∃ d ∈ diagrams, s ∈ d) ∧ (fromDiagrams it).Nodup ∧ (fromDiagrams it).Pairwise (fun s t => s.name ≤ t.name) :=
  ⟨fun s => by rw [fromDiagrams, (pySorted_perm it).mem_iff]; exact hit.2 s, (pySorted_perm it).nodup_iff.mpr hit.1, pySorted_sorted it⟩

/-- **C78 (determinism).** If no two symbols of the diagrams share a name, the list of symbols depends only on the set of symbols: not on the order or repetition of the diagrams, nor on
the order in which Python iterates over sets. So weights trained on one run belong to the same symbols in another. -/
theorem C78_deterministic_partial {diagrams diagrams' : List (List (Sym R))} {it it' : List (Sym R)} (hit : IterOrder diagrams it) (hit' : IterOrder diagrams' it')
    (hsame : ∀ s, (∃ d ∈ diagrams, s ∈ d) ↔ ∃ d ∈ diagrams', s ∈ d)
    (hnames : ∀ s t, (∃ d ∈ diagrams, s ∈ d) → (∃ d ∈ diagrams, t ∈ d) → s.name = t.name → s = t) : fromDiagrams it = fromDiagrams it' := by
  have strict : ∀ jt, (∀ s ∈ jt, ∃ d ∈ diagrams, s ∈ d) → jt.Nodup → (fromDiagrams jt).Pairwise (fun s t => s.name < t.name) := by
    intro jt hm hn
    have h1 := pySorted_sorted jt
    have h2 : (pySorted jt).Nodup := (pySorted_perm jt).nodup_iff.mpr hn
    refine (h1.and h2).imp_of_mem ?_
    intro a b ha hb hab
    refine lt_of_le_of_ne hab.1 (fun he => hab.2 ?_)
    exact hnames a b (hm a ((pySorted_perm jt).mem_iff.mp ha)) (hm b ((pySorted_perm jt).mem_iff.mp hb)) he
  have s1 := strict it (fun s hs => (hit.2 s).mp hs) hit.1
  have s2 := strict it' (fun s hs => (hsame s).mpr ((hit'.2 s).mp hs)) hit'.1
  have hp : (fromDiagrams it).Perm (fromDiagrams it') := by
    refine (List.perm_ext_iff_of_nodup ((pySorted_perm it).nodup_iff.mpr hit.1) ((pySorted_perm it').nodup_iff.mpr hit'.1)).mpr ?_
    intro s
    exact ((C78_symbols hit).1 s).trans ((hsame s).trans ((C78_symbols hit').1 s).symm)
  exact hp.eq_of_pairwise (fun a b _ _ h1 h2 => absurd h1 (lt_asymm h2)) s1 s2

/-- **C78 (determinism, refuted for symbols that share a name).** Two boxes of the same name with symbols of different sizes: their order is the order of iteration. -/
theorem C78_refuted_same_name : ∃ (diagrams : List (List (Sym ℚ))) (it it' : List (Sym ℚ)), IterOrder diagrams it ∧ IterOrder diagrams it' ∧ fromDiagrams it ≠ fromDiagrams it' := by
  refine ⟨[[⟨"w", 1, 2, 1⟩, ⟨"w", 1, 4, 1⟩]], [⟨"w", 1, 2, 1⟩, ⟨"w", 1, 4, 1⟩], [⟨"w", 1, 4, 1⟩, ⟨"w", 1, 2, 1⟩], ⟨by simp, by simp⟩, ⟨by simp, fun s => by simp [or_comm]⟩, ?_⟩
  have hlt : ∀ a b : Sym ℚ, a.name = b.name → a.scale = b.scale → symLt a b = false := by
    intro a b h1 h2
    simp only [symLt, h1, h2, decide_eq_false_iff_not]
    rintro (h | ⟨_, h⟩) <;> exact lt_irrefl _ h
  simp [fromDiagrams, pySorted, List.mergeSort, List.merge, List.MergeSort.Internal.splitInTwo, hlt]

example : IterOrder [[(⟨"b", 1, 1, 1⟩ : Sym ℚ), ⟨"a", 1, 1, 1⟩], [⟨"a", 1, 1, 1⟩]] [⟨"a", 1, 1, 1⟩, ⟨"b", 1, 1, 1⟩] := by
  refine ⟨by simp, fun s => ?_⟩
  simp; tauto

/-- **C78 (initial weights).** One weight for each symbol; ValueError exactly when there are no symbols. -/
theorem C78_weights (symbols : List (Sym R)) (rand : Nat → ℝ) :
    (symbols = [] → initialiseWeights symbols rand = .error .valueError) ∧
    (symbols ≠ [] → ∃ ws, initialiseWeights symbols rand = .ok ws ∧ ws.length = symbols.length ∧ ∀ w ∈ ws, ∃ i, w = rand i) := by
  refine ⟨fun h => by simp [initialiseWeights, h], fun h => ⟨(List.range symbols.length).map rand, if_neg h, by simp, ?_⟩⟩
  intro w hw
  obtain ⟨i, _, rfl⟩ := List.mem_map.mp hw
  exact ⟨i, rfl⟩

theorem mean_pos (size : Nat) (h : 1 ≤ size) : 0 < mean size := by
  unfold mean
  apply Real.sqrt_pos.mpr
  by_cases h6 : size < 6
  · simp only [if_pos h6]
    have : size = 1 ∨ size = 2 ∨ size = 3 ∨ size = 4 ∨ size = 5 := by omega
    rcases this with rfl | rfl | rfl | rfl | rfl <;> norm_num
  · simp only [if_neg h6]
    have h7 : (6 : ℝ) ≤ size := by exact_mod_cast Nat.le_of_not_lt h6
    have h8 : (0.92 : ℝ) ≤ 0.16 * size - 0.04 := by linarith
    have h9 : 1 / (0.16 * (size : ℝ) - 0.04) ≤ 2 := by
      rw [div_le_iff₀ (by linarith)]; linarith
    have h10 : 1 / (15 - 1 / (0.16 * (size : ℝ) - 0.04)) ≤ 1 := by
      rw [div_le_iff₀ (by linarith)]; linarith
    linarith

/-- **C78 (initial weights of tensors).** For `PytorchModel` the weight of a symbol has as many entries as the box of that symbol has (`directed_dom * directed_cod`), and for numbers drawn from
`[0, 1]` they lie in the interval of half-width `1 / mean(directed_cod)`, where the mean is positive: no division by zero. -/
theorem C78_torch_weights (symbols : List (Sym R)) (hne : symbols ≠ []) (hsz : ∀ s ∈ symbols, 1 ≤ s.directedCod) (rand : Nat → Nat → ℝ) (hr : ∀ i k, 0 ≤ rand i k ∧ rand i k ≤ 1) :
    ∃ ws, initialiseTorch symbols rand = .ok ws ∧ ws.length = symbols.length ∧
      ∀ (i : Nat) (hi : i < symbols.length), ∃ w, ws[i]? = some w ∧ w.length = symbols[i].directedDom * symbols[i].directedCod ∧
        0 < mean symbols[i].directedCod ∧ ∀ x ∈ w, |x| ≤ 1 / mean symbols[i].directedCod := by
  refine ⟨symbols.zipIdx.map (fun (p : Sym R × Nat) => (List.range (p.1.directedDom * p.1.directedCod)).map (fun (k : Nat) => (2 * rand p.2 k - 1) / mean p.1.directedCod)), if_neg hne, by simp, fun i hi => ?_⟩
  refine ⟨_, by rw [List.getElem?_map, List.getElem?_zipIdx, List.getElem?_eq_getElem hi]; rfl, by simp, mean_pos _ (hsz _ (List.getElem_mem hi)), ?_⟩
  intro x hx
  obtain ⟨k, _, rfl⟩ := List.mem_map.mp hx
  have hm := mean_pos _ (hsz _ (List.getElem_mem hi))
  rw [abs_div, abs_of_pos hm]
  apply div_le_div_of_nonneg_right _ (le_of_lt hm)
  have := hr (0 + i) k
  rw [abs_le]; constructor <;> linarith

example : ∃ ws, initialiseTorch [(⟨"w", 2, 3, 1⟩ : Sym ℚ)] (fun _ _ => 0) = .ok ws ∧ (ws.map List.length) = [6] := ⟨_, rfl, rfl⟩

end ModelSymbols
end Lambeq
