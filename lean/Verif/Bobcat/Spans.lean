import Verif.Py
import Mathlib.Data.Nat.Sqrt
import Mathlib.Data.List.Range
import Mathlib.Data.List.Nodup
import Mathlib.Tactic.Ring

/-!
# Bobcat: the numbering of the spans of a chart (C65)

Models `lambeq/bobcat/tagger.py` 43-73. The module-level list `SPAN_MEMO` is a state that is passed along.
Simplifications: lengths and indices are natural numbers; `int((2*i) ** 0.5)` is the exact integer square root (floats agree with it for
`i < 2 ** 51`).
-/

namespace Lambeq
namespace Bobcat
set_option linter.unusedSimpArgs false

/-- `SPAN_MEMO`, tagger.py:43 -/
abbrev Memo := List (Nat × Nat)

/-- tagger.py:46-47 -/
def chartSize (length : Nat) : Nat := length * (length + 1) / 2

/-- tagger.py:62: `((start, end) for start in reversed(range(end + 1)))` -/
def spansEnding (e : Nat) : List (Nat × Nat) := (List.range (e + 1)).reverse.map (fun s => (s, e))

/-- tagger.py:56-61: `last_end + 1` -/
def nextEnd (memo : Memo) : Nat :=
  match memo.getLast? with
  | some p => p.2 + 1
  | none => 0

/-- tagger.py:61-62 -/
def extendMemo : Nat → Nat → Memo → Memo
  | 0, _, memo => memo
  | n + 1, e, memo => extendMemo n (e + 1) (memo ++ spansEnding e)

/-- tagger.py:50-63; also gives the new memo. -/
def getChartSpans (length : Nat) (memo : Memo) : List (Nat × Nat) × Memo :=
  if chartSize length ≤ memo.length then (memo.take (chartSize length), memo)
  else
    let memo' := extendMemo (length - nextEnd memo) (nextEnd memo) memo
    (memo', memo')

/-- tagger.py:66-69 -/
def idx2span (i : Nat) (memo : Memo) : Except PyErr (Nat × Nat) × Memo :=
  let memo' := if memo.length ≤ i then (getChartSpans (Nat.sqrt (2 * i) + 1) memo).2 else memo
  match memo'[i]? with
  | some p => (.ok p, memo')
  | none => (.error .indexError, memo')

/-- tagger.py:72-73; Python integers, so the result may be negative. -/
def span2idx (x y : Nat) : Int := (chartSize (y + 1) : Int) - x - 1

/-- The calls that change the memo. -/
inductive SpanCall
  | spans (length : Nat)
  | idx (i : Nat)

/-- The memo after a history of calls. -/
def runCalls : List SpanCall → Memo → Memo
  | [], memo => memo
  | .spans n :: cs, memo => runCalls cs (getChartSpans n memo).2
  | .idx i :: cs, memo => runCalls cs (idx2span i memo).2

/-! ## Proofs -/

/-- All spans that end before `n`. -/
def allSpans : Nat → List (Nat × Nat)
  | 0 => []
  | n + 1 => allSpans n ++ spansEnding n

theorem two_chartSize (n : Nat) : 2 * chartSize n = n * (n + 1) := Nat.two_mul_div_two_of_even (Nat.even_mul_succ_self n)

theorem chartSize_succ (n : Nat) : chartSize (n + 1) = chartSize n + (n + 1) := by
  have h1 := two_chartSize n
  have h2 := two_chartSize (n + 1)
  have h3 : (n + 1) * (n + 1 + 1) = n * (n + 1) + 2 * (n + 1) := by ring
  omega

theorem chartSize_mono {m n : Nat} (h : m ≤ n) : chartSize m ≤ chartSize n := Nat.div_le_div_right (Nat.mul_le_mul h (by omega))

theorem chartSize_lt {m n : Nat} (h : m < n) : chartSize m < chartSize n := by
  have := chartSize_mono (show m + 1 ≤ n from h)
  rw [chartSize_succ] at this
  omega

theorem length_spansEnding (e : Nat) : (spansEnding e).length = e + 1 := by simp [spansEnding]

theorem length_allSpans (n : Nat) : (allSpans n).length = chartSize n := by
  induction n with
  | zero => rfl
  | succ n ih => rw [allSpans, List.length_append, ih, length_spansEnding, chartSize_succ]

theorem mem_spansEnding (x y e : Nat) : (x, y) ∈ spansEnding e ↔ x ≤ e ∧ y = e := by
  simp only [spansEnding, List.mem_map, List.mem_reverse, List.mem_range, Prod.mk.injEq]
  constructor
  · rintro ⟨s, h, rfl, rfl⟩; exact ⟨by omega, rfl⟩
  · rintro ⟨h, rfl⟩; exact ⟨x, by omega, rfl, rfl⟩

theorem mem_allSpans (x y n : Nat) : (x, y) ∈ allSpans n ↔ x ≤ y ∧ y < n := by
  induction n with
  | zero => simp [allSpans]
  | succ n ih =>
    rw [allSpans, List.mem_append, ih, mem_spansEnding]
    constructor
    · rintro (⟨h1, h2⟩ | ⟨h1, rfl⟩)
      · exact ⟨h1, by omega⟩
      · exact ⟨h1, by omega⟩
    · rintro ⟨h1, h2⟩
      by_cases h : y = n
      · subst h; exact .inr ⟨h1, rfl⟩
      · exact .inl ⟨h1, by omega⟩

theorem allSpans_take {m n : Nat} (h : m ≤ n) : (allSpans n).take (chartSize m) = allSpans m := by
  induction n with
  | zero => obtain rfl : m = 0 := by omega
            rfl
  | succ n ih =>
    by_cases hm : m = n + 1
    · subst hm; rw [← length_allSpans, List.take_length]
    · rw [allSpans, List.take_append_of_le_length (by rw [length_allSpans]; exact chartSize_mono (by omega)), ih (by omega)]

theorem getElem_allSpans (x y n : Nat) (h1 : x ≤ y) (h2 : y < n) : (allSpans n)[chartSize (y + 1) - x - 1]? = some (x, y) := by
  have hlt : chartSize (y + 1) - x - 1 < chartSize (y + 1) := by rw [chartSize_succ]; omega
  have : (allSpans n)[chartSize (y + 1) - x - 1]? = (allSpans (y + 1))[chartSize (y + 1) - x - 1]? := by
    rw [← allSpans_take (show y + 1 ≤ n from h2), List.getElem?_take_of_lt hlt]
  rw [this, allSpans, List.getElem?_append_right (by rw [length_allSpans, chartSize_succ]; omega), length_allSpans]
  have he : chartSize (y + 1) - x - 1 - chartSize y = y - x := by rw [chartSize_succ]; omega
  rw [he]
  simp only [spansEnding, List.getElem?_map]
  rw [List.getElem?_reverse (by simp; omega)]
  simp only [List.length_range]
  rw [List.getElem?_range (by omega)]
  simp; omega

theorem extendMemo_allSpans (n e : Nat) : extendMemo n e (allSpans e) = allSpans (e + n) := by
  induction n generalizing e with
  | zero => rfl
  | succ n ih =>
    have := ih (e + 1)
    simp only [extendMemo]
    rw [show allSpans e ++ spansEnding e = allSpans (e + 1) from rfl, this, show e + 1 + n = e + (n + 1) by omega]

theorem nextEnd_allSpans (n : Nat) : nextEnd (allSpans n) = n := by
  cases n with
  | zero => rfl
  | succ n => simp [nextEnd, allSpans, spansEnding, List.head?_range]

/-- With a memo of the spans of some number of words. -/
theorem getChartSpans_eq (n m : Nat) : getChartSpans n (allSpans m) = (allSpans n, allSpans (max m n)) := by
  unfold getChartSpans
  rw [length_allSpans]
  by_cases h : n ≤ m
  · rw [if_pos (chartSize_mono h), allSpans_take h, max_eq_left h]
  · have hlt := chartSize_lt (show m < n by omega)
    rw [if_neg (by omega)]
    simp only [nextEnd_allSpans, extendMemo_allSpans]
    rw [show m + (n - m) = n by omega, max_eq_right (by omega)]

theorem idx2span_state (i m : Nat) : ∃ m', (idx2span i (allSpans m)).2 = allSpans m' ∧ i < chartSize m' ∧
    (idx2span i (allSpans m)).1 = match (allSpans m')[i]? with | some p => .ok p | none => .error .indexError := by
  by_cases h : (allSpans m).length ≤ i
  · refine ⟨max m (Nat.sqrt (2 * i) + 1), ?_, ?_, ?_⟩
    · unfold idx2span; simp only [h, if_true, getChartSpans_eq]; split <;> rfl
    · have h1 : 2 * i < (Nat.sqrt (2 * i) + 1) * (Nat.sqrt (2 * i) + 1) := Nat.lt_succ_sqrt _
      have h2 := two_chartSize (Nat.sqrt (2 * i) + 1)
      have h3 : (Nat.sqrt (2 * i) + 1) * (Nat.sqrt (2 * i) + 1) ≤ (Nat.sqrt (2 * i) + 1) * (Nat.sqrt (2 * i) + 1 + 1) := Nat.mul_le_mul (le_refl _) (by omega)
      have h4 := chartSize_mono (le_max_right m (Nat.sqrt (2 * i) + 1))
      omega
    · unfold idx2span; simp only [h, if_true, getChartSpans_eq]; split <;> (rename_i hh; simp [hh])
  · refine ⟨m, ?_, ?_, ?_⟩
    · unfold idx2span; simp only [h, if_false]; split <;> rfl
    · rw [length_allSpans] at h; omega
    · unfold idx2span; simp only [h, if_false]; split <;> (rename_i hh; simp [hh])

theorem runCalls_state (cs : List SpanCall) (m : Nat) : ∃ m', runCalls cs (allSpans m) = allSpans m' := by
  induction cs generalizing m with
  | nil => exact ⟨m, rfl⟩
  | cons c cs ih =>
    cases c with
    | spans n => simp only [runCalls, getChartSpans_eq]; exact ih _
    | idx i =>
      obtain ⟨m', h, _⟩ := idx2span_state i m
      simp only [runCalls, h]; exact ih _

theorem nodup_allSpans (n : Nat) : (allSpans n).Nodup := by
  induction n with
  | zero => simp [allSpans]
  | succ n ih =>
    rw [allSpans, List.nodup_append]
    refine ⟨ih, ?_, ?_⟩
    · unfold spansEnding
      refine List.Nodup.map (fun a b h => by simpa using h) ?_
      rw [List.nodup_reverse]; exact List.nodup_range
    · intro p hp q hq
      obtain ⟨x, y⟩ := p
      obtain ⟨x', y'⟩ := q
      rw [mem_allSpans] at hp
      rw [mem_spansEnding] at hq
      intro he
      simp only [Prod.mk.injEq] at he
      omega

/-- **C65 (spans of a sentence).** After every history of calls, `get_chart_spans(n)` gives every span `(x, y)` with `x ≤ y < n` exactly once and
nothing else, and the span `(x, y)` is at position `span2idx(x, y)`; in particular the result does not depend on the history. -/
theorem C65_chart_spans (cs : List SpanCall) (n : Nat) :
    (getChartSpans n (runCalls cs [])).1.Nodup ∧
    (∀ x y, (x, y) ∈ (getChartSpans n (runCalls cs [])).1 ↔ x ≤ y ∧ y < n) ∧
    (getChartSpans n (runCalls cs [])).1.length = chartSize n ∧
    (∀ x y, x ≤ y → y < n → ∃ k : Nat, (k : Int) = span2idx x y ∧ (getChartSpans n (runCalls cs [])).1[k]? = some (x, y)) ∧
    (getChartSpans n (runCalls cs [])).1 = (getChartSpans n []).1 := by
  obtain ⟨m, hm⟩ := runCalls_state cs 0
  rw [show allSpans 0 = [] from rfl] at hm
  have h0 := getChartSpans_eq n 0
  rw [show allSpans 0 = [] from rfl] at h0
  rw [hm, getChartSpans_eq, h0]
  refine ⟨nodup_allSpans n, fun x y => mem_allSpans x y n, length_allSpans n, ?_, rfl⟩
  intro x y h1 h2
  refine ⟨chartSize (y + 1) - x - 1, ?_, getElem_allSpans x y n h1 h2⟩
  unfold span2idx
  have := chartSize_succ y
  omega

/-- **C65 (numbering).** After every history of calls, `idx2span` is defined for every index, gives a span, and is the inverse of `span2idx`
in both directions. -/
theorem C65_idx2span (cs : List SpanCall) :
    (∀ i, ∃ x y, (idx2span i (runCalls cs [])).1 = .ok (x, y) ∧ x ≤ y ∧ span2idx x y = (i : Int)) ∧
    (∀ x y : Nat, x ≤ y → ∃ i : Nat, (i : Int) = span2idx x y ∧ (idx2span i (runCalls cs [])).1 = .ok (x, y)) := by
  obtain ⟨m, hm⟩ := runCalls_state cs 0
  rw [show allSpans 0 = [] from rfl] at hm
  rw [hm]
  have hinv : ∀ x y : Nat, x ≤ y → ∃ i : Nat, (i : Int) = span2idx x y ∧ (idx2span i (allSpans m)).1 = .ok (x, y) := by
    intro x y h
    have hs := chartSize_succ y
    refine ⟨chartSize (y + 1) - x - 1, by unfold span2idx; omega, ?_⟩
    obtain ⟨m', _, h1, h2⟩ := idx2span_state (chartSize (y + 1) - x - 1) m
    have hy : y < m' := by
      by_contra hge
      have := chartSize_mono (show m' ≤ y by omega)
      omega
    rw [h2, getElem_allSpans x y m' h hy]
  refine ⟨?_, hinv⟩
  intro i
  obtain ⟨m', h0, h1, h2⟩ := idx2span_state i m
  have hlt : i < (allSpans m').length := by rw [length_allSpans]; exact h1
  obtain ⟨⟨x, y⟩, hp⟩ : ∃ p, (allSpans m')[i]? = some p := ⟨_, List.getElem?_eq_getElem hlt⟩
  rw [hp] at h2
  have hmem := List.mem_of_getElem? hp
  rw [mem_allSpans] at hmem
  refine ⟨x, y, h2, hmem.1, ?_⟩
  have hg := getElem_allSpans x y m' hmem.1 hmem.2
  have hs := chartSize_succ y
  have hsm := chartSize_mono (show y + 1 ≤ m' by omega)
  have hinj := (List.getElem?_inj hlt (nodup_allSpans m')).1 (hp.trans hg.symm)
  unfold span2idx
  omega

example : (getChartSpans 2 (runCalls [.idx 4, .spans 3] [])).1 = [(0, 0), (1, 1), (0, 1)] ∧ (idx2span 4 []).1.toOption = some (1, 2) ∧ span2idx 1 2 = 4 := by
  decide +kernel

end Bobcat
end Lambeq
