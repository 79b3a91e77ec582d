import Verif.Py
import Mathlib.Analysis.SpecialFunctions.Log.Basic
import Mathlib.Algebra.BigOperators.Group.List.Basic
import Mathlib.Algebra.Order.BigOperators.Group.List

/-!
# Loss functions (C81)

Models `lambeq/training/loss.py`: `_match_shapes` (63-68), `_smooth_and_normalise` (70-83), `CrossEntropyLoss` (130-142), `BinaryCrossEntropyLoss` (185-201), `MSELoss` (216-223).
Numbers are exact reals; the mean over an empty batch is `nan` (here `none`). Arrays of two axes are lists of rows of equal length.
-/

namespace Lambeq
namespace Loss
set_option linter.unusedSectionVars false
set_option linter.unusedSimpArgs false
noncomputable section

/-- The shape of an array with two axes. -/
def shape2 (y : List (List ℝ)) : Nat × Nat := (y.length, (y.head?.map List.length).getD 0)

/-- One row of `_smooth_and_normalise`, loss.py:70-83. -/
def smoothRow (eps : ℝ) (row : List ℝ) : List ℝ :=
  let s := row.map (· + eps)
  s.map (· / (s.map abs).sum)

/-- `CrossEntropyLoss(epsilon=eps).calculate_loss`, loss.py:130-142. -/
def crossEntropy (eps : ℝ) (yPred yTrue : List (List ℝ)) : Except PyErr (Option ℝ) :=
  if shape2 yPred ≠ shape2 yTrue then .error .valueError
  else if yTrue.length = 0 then .ok none
  else .ok (some (-((List.zipWith (fun t p => (List.zipWith (fun a b => a * Real.log b) t (smoothRow eps p)).sum) yTrue yPred).sum) / yTrue.length))

/-- `BinaryCrossEntropyLoss(sparse=True)`, loss.py:190-199: the arrays have one axis. -/
def binarySparse (eps : ℝ) (yPred yTrue : List ℝ) : Except PyErr (Option ℝ) :=
  if yPred.length ≠ yTrue.length then .error .valueError
  else crossEntropy eps (yPred.map (fun x => [1 - x, x])) (yTrue.map (fun x => [1 - x, x]))

/-- `MSELoss`, loss.py:216-223, on arrays with the given shapes and their entries in order. -/
def mse (shapeP shapeT : List Nat) (yPred yTrue : List ℝ) : Except PyErr (Option ℝ) :=
  if shapeP ≠ shapeT then .error .valueError
  else if yPred.length = 0 then .ok none
  else .ok (some ((List.zipWith (fun a b => (a - b) ^ 2) yPred yTrue).sum / yPred.length))

/-! ## Specification -/

/-- The one-hot vector for class `k` of `c`. -/
def oneHot (c k : Nat) : List ℝ := (List.range c).map (fun i => if i = k then 1 else 0)

/-- A probability distribution over `c` classes. -/
structure IsDist (c : Nat) (p : List ℝ) : Prop where
  len : p.length = c
  nonneg : ∀ x ∈ p, 0 ≤ x
  sum : p.sum = 1

/-! ## Cross entropy -/

theorem smooth_norm {eps : ℝ} (he : 0 < eps) {c : Nat} {p : List ℝ} (h : IsDist c p) : ((p.map (· + eps)).map abs).sum = 1 + c * eps := by
  have h1 : (p.map (· + eps)).map abs = p.map (· + eps) := by
    rw [List.map_map]
    apply List.map_congr_left
    intro x hx
    exact abs_of_nonneg (by have := h.nonneg x hx; positivity)
  rw [h1]
  have : ∀ q : List ℝ, (q.map (· + eps)).sum = q.sum + q.length * eps := by
    intro q
    induction q with
    | nil => simp
    | cons x q ih => simp [ih]; ring
  rw [this, h.sum, h.len]

theorem dot_oneHot (c k : Nat) (hk : k < c) (q : List ℝ) (hq : q.length = c) : (List.zipWith (fun a b => a * Real.log b) (oneHot c k) q).sum = Real.log (q.getD k 0) := by
  have gen : ∀ (n s : Nat) (q : List ℝ), q.length = n → (List.zipWith (fun a b => a * Real.log b) ((List.range' s n).map (fun i => if i = k then (1 : ℝ) else 0)) q).sum =
      if s ≤ k ∧ k < s + n then Real.log (q.getD (k - s) 0) else 0 := by
    intro n
    induction n with
    | zero => intro s q _; rw [if_neg (by omega)]; simp
    | succ n ih =>
      intro s q hq
      cases q with
      | nil => simp at hq
      | cons x q =>
        rw [List.range'_succ, List.map_cons, List.zipWith_cons_cons, List.sum_cons, ih (s + 1) q (by simpa using hq)]
        by_cases hs : s = k
        · subst hs
          rw [if_pos rfl, if_neg (by omega), if_pos (by omega)]
          simp
        · rw [if_neg hs]
          by_cases hr : s + 1 ≤ k ∧ k < s + 1 + n
          · rw [if_pos hr, if_pos (by omega)]
            obtain ⟨j, hj⟩ : ∃ j, k - s = j + 1 := ⟨k - s - 1, by omega⟩
            rw [hj, show k - (s + 1) = j by omega]
            simp
          · rw [if_neg hr, if_neg (by omega)]; simp
  have := gen c 0 q hq
  rw [if_pos ⟨Nat.zero_le _, by omega⟩] at this
  simpa [oneHot, List.range_eq_range'] using this

theorem getD_smooth (eps : ℝ) (p : List ℝ) (k : Nat) (hk : k < p.length) :
    (smoothRow eps p).getD k 0 = (p.getD k 0 + eps) / (((p.map (· + eps)).map abs).sum) := by
  simp [smoothRow, List.getD_eq_getElem?_getD, hk]

/-- **C81 (cross entropy).** For a batch of predicted distributions over `c` classes and labels `ks` (as one-hot rows), the loss is the mean of `-log((p + ε) / (1 + c ε))`, where `p` is the predicted
probability of the true class. In particular it is always a finite number, even when that probability is 0. -/
theorem C81_cross_entropy {eps : ℝ} (he : 0 < eps) (c : Nat) (ps : List (List ℝ)) (ks : List Nat) (hd : ∀ p ∈ ps, IsDist c p) (hk : ∀ k ∈ ks, k < c) (hl : ps.length = ks.length) (hn : ps ≠ []) :
    crossEntropy eps ps (ks.map (oneHot c)) = .ok (some ((List.zipWith (fun p k => -Real.log ((p.getD k 0 + eps) / (1 + c * eps))) ps ks).sum / ps.length)) := by
  obtain ⟨p0, ps', rfl⟩ := List.exists_cons_of_ne_nil hn
  cases ks with
  | nil => simp at hl
  | cons k0 ks =>
    have hs : shape2 (p0 :: ps') = shape2 ((k0 :: ks).map (oneHot c)) := by
      simp only [shape2, List.length_map, hl]
      simp [oneHot, (hd p0 (by simp)).len]
    unfold crossEntropy
    rw [if_neg (by simp [hs]), if_neg (by simp)]
    congr 2
    have gen : ∀ (ps : List (List ℝ)) (ks : List Nat), (∀ p ∈ ps, IsDist c p) → (∀ k ∈ ks, k < c) →
        -((List.zipWith (fun t p => (List.zipWith (fun a b => a * Real.log b) t (smoothRow eps p)).sum) (ks.map (oneHot c)) ps).sum) =
        (List.zipWith (fun p k => -Real.log ((p.getD k 0 + eps) / (1 + c * eps))) ps ks).sum := by
      intro ps
      induction ps with
      | nil => intro ks _ _; simp
      | cons p ps ih =>
        intro ks h1 h2
        cases ks with
        | nil => simp
        | cons k ks =>
          rw [List.map_cons, List.zipWith_cons_cons, List.zipWith_cons_cons, List.sum_cons, List.sum_cons, neg_add,
            ih ks (fun q hq => h1 q (by simp [hq])) (fun q hq => h2 q (by simp [hq]))]
          have hp := h1 p (by simp)
          have hkc := h2 k (by simp)
          rw [dot_oneHot c k hkc _ (by simp [smoothRow, hp.len]), getD_smooth eps p k (by rw [hp.len]; exact hkc), smooth_norm he hp]
    rw [gen _ _ hd hk]
    congr 1
    simp [hl]

theorem prob_bounds {c : Nat} {p : List ℝ} (h : IsDist c p) (k : Nat) : 0 ≤ p.getD k 0 ∧ p.getD k 0 ≤ 1 := by
  by_cases hk : k < p.length
  · rw [List.getD_eq_getElem?_getD, List.getElem?_eq_getElem hk]
    refine ⟨h.nonneg _ (List.getElem_mem hk), ?_⟩
    rw [← h.sum]
    exact List.single_le_sum h.nonneg _ (List.getElem_mem hk)
  · rw [List.getD_eq_getElem?_getD, List.getElem?_eq_none (by omega)]
    simp

theorem term_bounds {eps : ℝ} (he : 0 < eps) {c : Nat} (hc : 1 ≤ c) {x : ℝ} (h0 : 0 ≤ x) (h1 : x ≤ 1) :
    Real.log ((1 + c * eps) / (1 + eps)) ≤ -Real.log ((x + eps) / (1 + c * eps)) ∧ -Real.log ((x + eps) / (1 + c * eps)) ≤ Real.log ((1 + c * eps) / eps) ∧
    (-Real.log ((x + eps) / (1 + c * eps)) = Real.log ((1 + c * eps) / (1 + eps)) ↔ x = 1) := by
  have hc' : (1 : ℝ) ≤ c := by exact_mod_cast hc
  have hz : 0 < 1 + c * eps := by positivity
  have hx : 0 < x + eps := by linarith
  have e : -Real.log ((x + eps) / (1 + c * eps)) = Real.log ((1 + c * eps) / (x + eps)) := by rw [← Real.log_inv, inv_div]
  rw [e]
  refine ⟨Real.log_le_log (by positivity) (div_le_div_of_nonneg_left (le_of_lt hz) hx (by linarith)), Real.log_le_log (by positivity) (div_le_div_of_nonneg_left (le_of_lt hz) he (by linarith)), ?_⟩
  constructor
  · intro h
    have := Real.log_injOn_pos (Set.mem_Ioi.mpr (by positivity)) (Set.mem_Ioi.mpr (by positivity)) h
    rw [div_eq_div_iff (ne_of_gt hx) (by positivity)] at this
    have h3 := mul_left_cancel₀ (ne_of_gt hz) this
    linarith
  · rintro rfl; rfl

/-- **C81 (range of the cross entropy).** The loss lies between `log((1 + c ε) / (1 + ε)) ≥ 0` and `log((1 + c ε) / ε)`, and the smallest value is taken exactly when every true class has
probability 1. -/
theorem C81_range {eps : ℝ} (he : 0 < eps) (c : Nat) (ps : List (List ℝ)) (ks : List Nat) (hd : ∀ p ∈ ps, IsDist c p) (hk : ∀ k ∈ ks, k < c) (hl : ps.length = ks.length) (hn : ps ≠ []) :
    ∃ loss, crossEntropy eps ps (ks.map (oneHot c)) = .ok (some loss) ∧ 0 ≤ Real.log ((1 + c * eps) / (1 + eps)) ∧
      Real.log ((1 + c * eps) / (1 + eps)) ≤ loss ∧ loss ≤ Real.log ((1 + c * eps) / eps) ∧
      (loss = Real.log ((1 + c * eps) / (1 + eps)) ↔ ∀ (i : Nat) (hi : i < ps.length), (ps[i]).getD (ks[i]'(by omega)) 0 = 1) := by
  refine ⟨_, C81_cross_entropy he c ps ks hd hk hl hn, ?_⟩
  set lo := Real.log ((1 + c * eps) / (1 + eps)) with hlo
  set up := Real.log ((1 + c * eps) / eps) with hup
  have hc : 1 ≤ c := by
    cases ks with
    | nil => simp at hl; exact absurd hl hn
    | cons k ks => have := hk k (by simp); omega
  have hlen : 0 < ps.length := List.length_pos_of_ne_nil hn
  have gen : ∀ (ps : List (List ℝ)) (ks : List Nat), (∀ p ∈ ps, IsDist c p) → (hl : ps.length = ks.length) →
      let S := (List.zipWith (fun (p : List ℝ) (k : Nat) => -Real.log ((p.getD k 0 + eps) / (1 + c * eps))) ps ks).sum
      ps.length * lo ≤ S ∧ S ≤ ps.length * up ∧ (S = ps.length * lo ↔ ∀ (i : Nat) (hi : i < ps.length), (ps[i]).getD (ks[i]'(by omega)) 0 = 1) := by
    intro ps
    induction ps with
    | nil => intro ks _ _; simp
    | cons p ps ih =>
      intro ks h1 h2
      cases ks with
      | nil => simp at h2
      | cons k ks =>
        obtain ⟨i1, i2, i3⟩ := ih ks (fun q hq => h1 q (by simp [hq])) (by simpa using h2)
        obtain ⟨b0, b1⟩ := prob_bounds (h1 p (by simp)) k
        obtain ⟨t1, t2, t3⟩ := term_bounds he hc b0 b1
        rw [← hlo] at t1 t3
        rw [← hup] at t2
        simp only [List.zipWith_cons_cons, List.sum_cons, List.length_cons, Nat.cast_add, Nat.cast_one]
        refine ⟨by linarith, by linarith, ?_⟩
        constructor
        · intro h
          have e1 : -Real.log ((p.getD k 0 + eps) / (1 + c * eps)) = lo := by linarith
          have e2 := i3.mp (by linarith)
          intro i hi
          cases i with
          | zero => exact t3.mp e1
          | succ i => exact e2 i (by simpa using hi)
        · intro h
          have e1 := t3.mpr (h 0 (by simp))
          have e2 := i3.mpr (fun i hi => h (i + 1) (by simpa using hi))
          rw [e1, e2]; ring
  obtain ⟨g1, g2, g3⟩ := gen ps ks hd hl
  have hN : (0 : ℝ) < ps.length := by exact_mod_cast hlen
  have hc' : (1 : ℝ) ≤ c := by exact_mod_cast hc
  refine ⟨Real.log_nonneg ?_, ?_, ?_, ?_⟩
  · rw [le_div_iff₀ (by linarith)]; nlinarith
  · rw [le_div_iff₀ hN]; linarith
  · rw [div_le_iff₀ hN]; linarith
  · rw [← g3, div_eq_iff (ne_of_gt hN)]
    constructor <;> intro h <;> linarith

/-- **C81 (shapes).** Arrays of different shapes are rejected. -/
theorem C81_shapes (eps : ℝ) (yPred yTrue : List (List ℝ)) (h : shape2 yPred ≠ shape2 yTrue) : crossEntropy eps yPred yTrue = .error .valueError := if_pos h

/-- **C81 (sparse binary cross entropy).** With `sparse=True`, probabilities `P(1)` and labels 0 or 1 give the mean of `-log((P(label) + ε) / (1 + 2 ε))`. -/
theorem C81_sparse {eps : ℝ} (he : 0 < eps) (xs : List ℝ) (ks : List Nat) (hx : ∀ x ∈ xs, 0 ≤ x ∧ x ≤ 1) (hk : ∀ k ∈ ks, k < 2) (hl : xs.length = ks.length) (hn : xs ≠ []) :
    binarySparse eps xs (ks.map (fun (k : Nat) => (k : ℝ))) = .ok (some ((List.zipWith (fun x k => -Real.log (((if k = 1 then x else 1 - x) + eps) / (1 + 2 * eps))) xs ks).sum / xs.length)) := by
  unfold binarySparse
  rw [if_neg (by simp [hl])]
  have e1 : (ks.map (fun (k : Nat) => (k : ℝ))).map (fun x => [1 - x, x]) = ks.map (oneHot 2) := by
    rw [List.map_map]
    apply List.map_congr_left
    intro k hk'
    have h2 : k = 0 ∨ k = 1 := by have := hk k hk'; omega
    rcases h2 with rfl | rfl <;> simp [oneHot, List.range_succ]
  rw [e1, C81_cross_entropy he 2 _ ks ?_ hk (by simp [hl]) (by simpa using hn)]
  · congr 3
    · rw [List.zipWith_map_left]
      congr 1
      have : ∀ (xs : List ℝ) (ks : List Nat), (∀ k ∈ ks, k < 2) →
          List.zipWith (fun a b => -Real.log (([1 - a, a].getD b 0 + eps) / (1 + ((2 : ℕ) : ℝ) * eps))) xs ks =
          List.zipWith (fun x k => -Real.log (((if k = 1 then x else 1 - x) + eps) / (1 + 2 * eps))) xs ks := by
        intro xs
        induction xs with
        | nil => intro ks _; rfl
        | cons x xs ih =>
          intro ks hk
          cases ks with
          | nil => rfl
          | cons k ks =>
            rw [List.zipWith_cons_cons, List.zipWith_cons_cons, ih ks (fun q hq => hk q (by simp [hq]))]
            have h2 : k = 0 ∨ k = 1 := by have := hk k (by simp); omega
            rcases h2 with rfl | rfl <;> simp
      exact this xs ks hk
    · simp
  · intro p hp
    obtain ⟨x, hx', rfl⟩ := List.mem_map.mp hp
    obtain ⟨h0, h1⟩ := hx x hx'
    exact ⟨rfl, by intro y hy; simp at hy; rcases hy with rfl | rfl <;> linarith, by simp⟩

/-! ## Mean squared error -/

/-- **C81 (mean squared error).** For arrays of one shape with at least one entry, the loss is not negative, and zero exactly when the arrays are equal; arrays of different shapes are rejected. -/
theorem C81_mse (s : List Nat) (yPred yTrue : List ℝ) (hl : yPred.length = yTrue.length) (hn : yPred ≠ []) :
    (∃ loss, mse s s yPred yTrue = .ok (some loss) ∧ 0 ≤ loss ∧ (loss = 0 ↔ yPred = yTrue)) ∧ ∀ s', s' ≠ s → mse s s' yPred yTrue = .error .valueError := by
  have hlen : 0 < yPred.length := List.length_pos_of_ne_nil hn
  refine ⟨⟨(List.zipWith (fun a b => (a - b) ^ 2) yPred yTrue).sum / yPred.length, by simp [mse, hn], ?_⟩, fun s' hs => if_pos (Ne.symm hs)⟩
  have gen : ∀ (a b : List ℝ), a.length = b.length → 0 ≤ (List.zipWith (fun a b => (a - b) ^ 2) a b).sum ∧ ((List.zipWith (fun a b => (a - b) ^ 2) a b).sum = 0 ↔ a = b) := by
    intro a
    induction a with
    | nil => intro b hb; cases b <;> simp_all
    | cons x a ih =>
      intro b hb
      cases b with
      | nil => simp at hb
      | cons y b =>
        obtain ⟨i1, i2⟩ := ih b (by simpa using hb)
        have hsq : 0 ≤ (x - y) ^ 2 := sq_nonneg _
        simp only [List.zipWith_cons_cons, List.sum_cons, List.cons.injEq]
        refine ⟨by linarith, ?_⟩
        constructor
        · intro h
          have h1 : (x - y) ^ 2 = 0 := by linarith
          have h2 := i2.mp (by linarith)
          exact ⟨by have := pow_eq_zero_iff (n := 2) (by norm_num) |>.mp h1; linarith, h2⟩
        · rintro ⟨rfl, rfl⟩
          rw [i2.mpr rfl]; ring
  obtain ⟨g1, g2⟩ := gen yPred yTrue hl
  have hN : (0 : ℝ) < yPred.length := by exact_mod_cast hlen
  refine ⟨div_nonneg g1 (le_of_lt hN), ?_⟩
  rw [div_eq_zero_iff, or_iff_left (ne_of_gt hN)]
  exact g2

/-- The hypotheses are met by a batch of two predictions over three classes. -/
example : (∀ p ∈ [[(1 / 2 : ℝ), 1 / 2, 0], [0, 0, 1]], IsDist 3 p) ∧ (∀ k ∈ [1, 2], k < 3) := by
  refine ⟨?_, by decide⟩
  intro p hp
  simp at hp
  rcases hp with rfl | rfl
  · exact ⟨rfl, by intro x hx; simp at hx; rcases hx with rfl | rfl <;> norm_num, by norm_num⟩
  · exact ⟨rfl, by intro x hx; simp at hx; rcases hx with rfl | rfl <;> norm_num, by norm_num⟩

end
end Loss
end Lambeq
