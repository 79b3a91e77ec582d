import Verif.Py
import Mathlib.Analysis.SpecialFunctions.Complex.Arg
import Mathlib.Algebra.Order.Floor.Ring

/-!
# The Rotosolve optimiser

Models `lambeq/training/rotosolve_optimizer.py` (whole file): properties C60 and part of C44.

Simplifications. Floating point numbers are real numbers. Calling the model and the loss function on the batch is one function of the
weights. `numpy.arctan2(y, x)` is the argument of the complex number `x + y i` (the sign of zero is not modelled). `abs(x) % 1` is the
fractional part of `|x|`.
-/

namespace Lambeq
namespace Train
namespace Roto
set_option linter.unusedVariables false
set_option linter.unusedSimpArgs false
open Real

/-- `numpy.arctan2` -/
noncomputable def arctan2 (y x : ℝ) : ℝ := Complex.arg ⟨x, y⟩

/-- rotosolve_optimizer.py:78-80 -/
noncomputable def project (x : ℝ) : ℝ := Int.fract |x|

/-- rotosolve_optimizer.py:105-120, before the projection. -/
noncomputable def candidate (loss : List ℝ → ℝ) (w : List ℝ) (i : Nat) : ℝ :=
  let phi := w.getD i 0
  let m := loss w
  let w := w.set i (phi + 1 / 4)
  let mp := loss w
  let w := w.set i (phi - 1 / 4)
  let mm := loss w
  let angle := arctan2 (2 * m - mp - mm) (mp - mm)
  phi - 1 / 4 - angle / (2 * π)

/-- rotosolve_optimizer.py:105-120: the weights after the update of coordinate `i`. -/
noncomputable def update (loss : List ℝ → ℝ) (w : List ℝ) (i : Nat) : List ℝ := w.set i (project (candidate loss w i))

/-- rotosolve_optimizer.py:104: the loop over the given coordinates. -/
noncomputable def sweep (loss : List ℝ → ℝ) (w : List ℝ) (is : List Nat) : List ℝ := is.foldl (update loss) w

/-- rotosolve_optimizer.py:82-122: the weights afterwards and the loss returned. -/
noncomputable def backward (loss : List ℝ → ℝ) (w : List ℝ) : List ℝ × ℝ :=
  let w := sweep loss w (List.range w.length)
  (w, loss w)

/-- rotosolve_optimizer.py:124-126 -/
def step (w : List ℝ) : List ℝ := w

/-! ## Specification -/

/-- The loss as a function of coordinate `i` is a sinusoid of period 1 (weights are in full turns), as for a parameter that occurs in one
rotation gate of the circuit. -/
def Sinusoid (loss : List ℝ → ℝ) (w : List ℝ) (i : Nat) (A B C : ℝ) : Prop := ∀ θ, loss (w.set i θ) = A * sin (2 * π * θ + B) + C

/-- `x` in coordinate `i` gives the least loss over that coordinate. -/
def Minimises (loss : List ℝ → ℝ) (w : List ℝ) (i : Nat) (x : ℝ) : Prop := ∀ θ, loss (w.set i x) ≤ loss (w.set i θ)

/-! ## C60 -/

theorem arctan2_spec (A u : ℝ) : A * cos (u - arctan2 (2 * A * sin u) (2 * A * cos u)) = |A| := by
  unfold arctan2
  set z : ℂ := ⟨2 * A * cos u, 2 * A * sin u⟩ with hz
  have hn : ‖z‖ = 2 * |A| := by
    rw [Complex.norm_eq_sqrt_sq_add_sq]
    have : z.re ^ 2 + z.im ^ 2 = (2 * |A|) ^ 2 := by
      have hsq : |A| ^ 2 = A ^ 2 := sq_abs A
      have := sin_sq_add_cos_sq u
      simp only [hz]
      nlinarith
    rw [this, Real.sqrt_sq (by positivity)]
  have hc := Complex.norm_mul_cos_arg z
  have hs := Complex.norm_mul_sin_arg z
  rw [hn] at hc hs
  by_cases hA : A = 0
  · simp [hA]
  have hA' : |A| ≠ 0 := abs_ne_zero.2 hA
  have e1 : |A| * cos (Complex.arg z) = A * cos u := by simp only [hz] at hc ⊢; linarith
  have e2 : |A| * sin (Complex.arg z) = A * sin u := by simp only [hz] at hs ⊢; linarith
  rw [cos_sub]
  have hsq : |A| * |A| = A * A := abs_mul_abs_self A
  have h1 := sin_sq_add_cos_sq u
  have : |A| * (A * (cos u * cos (Complex.arg z) + sin u * sin (Complex.arg z))) = |A| * |A| := by
    calc |A| * (A * (cos u * cos (Complex.arg z) + sin u * sin (Complex.arg z)))
        = A * (cos u * (|A| * cos (Complex.arg z)) + sin u * (|A| * sin (Complex.arg z))) := by ring
      _ = A * A * (sin u ^ 2 + cos u ^ 2) := by rw [e1, e2]; ring
      _ = |A| * |A| := by rw [h1, hsq, mul_one]
  exact mul_left_cancel₀ hA' this

theorem set_getD_self (w : List ℝ) (i : Nat) : w.set i (w.getD i 0) = w := by
  rw [List.getD_eq_getElem?_getD]
  rcases Nat.lt_or_ge i w.length with h | h
  · rw [List.getElem?_eq_getElem h]; simp
  · rw [List.set_eq_of_length_le h]

/-- The candidate satisfies `A sin (2 π x + B) = - |A|`. -/
theorem candidate_value {loss : List ℝ → ℝ} {w : List ℝ} {i : Nat} {A B C : ℝ} (h : Sinusoid loss w i A B C) :
    A * sin (2 * π * candidate loss w i + B) = -|A| := by
  have h1 : loss w = A * sin (2 * π * w.getD i 0 + B) + C := by
    have := h (w.getD i 0); rwa [set_getD_self] at this
  have h2 : loss (w.set i (w.getD i 0 + 1 / 4)) = A * cos (2 * π * w.getD i 0 + B) + C := by
    rw [h, show 2 * π * (w.getD i 0 + 1 / 4) + B = (2 * π * w.getD i 0 + B) + π / 2 by ring, sin_add_pi_div_two]
  have h3 : loss ((w.set i (w.getD i 0 + 1 / 4)).set i (w.getD i 0 - 1 / 4)) = -A * cos (2 * π * w.getD i 0 + B) + C := by
    rw [List.set_set, h, show 2 * π * (w.getD i 0 - 1 / 4) + B = (2 * π * w.getD i 0 + B) - π / 2 by ring, sin_sub_pi_div_two]; ring
  have hcand : candidate loss w i = w.getD i 0 - 1 / 4 -
      arctan2 (2 * A * sin (2 * π * w.getD i 0 + B)) (2 * A * cos (2 * π * w.getD i 0 + B)) / (2 * π) := by
    unfold candidate
    simp only [h1, h2, h3]
    congr 2 <;> congr 1 <;> ring
  have hpi : (π : ℝ) ≠ 0 := pi_ne_zero
  rw [hcand]
  set u := 2 * π * w.getD i 0 + B
  set a := arctan2 (2 * A * sin u) (2 * A * cos u) with ha
  have : 2 * π * (w.getD i 0 - 1 / 4 - a / (2 * π)) + B = (u - a) - π / 2 := by
    simp only [u]; field_simp; ring
  rw [this, sin_sub_pi_div_two]
  have := arctan2_spec A u
  rw [← ha] at this
  linarith

theorem neg_abs_le_sin (A x : ℝ) : -|A| ≤ A * sin x := by
  have h1 := neg_abs_le (A * sin x)
  have h2 : |A * sin x| ≤ |A| := by
    rw [abs_mul]
    exact mul_le_of_le_one_right (abs_nonneg _) (abs_sin_le_one x)
  linarith

theorem sin_fract (x B : ℝ) : sin (2 * π * Int.fract x + B) = sin (2 * π * x + B) := by
  have : 2 * π * Int.fract x + B = 2 * π * x + B - (⌊x⌋ : ℝ) * (2 * π) := by
    have := Int.self_sub_floor x
    rw [← this]; ring
  rw [this, sin_sub_int_mul_two_pi]

/-- **C60 (what the formula finds).** For every sinusoid, and whatever the current weights, the value computed before the projection, and
also its fractional part, minimises the loss over the coordinate. -/
theorem C60_candidate {loss : List ℝ → ℝ} {w : List ℝ} {i : Nat} {A B C : ℝ} (h : Sinusoid loss w i A B C) :
    Minimises loss w i (candidate loss w i) ∧ Minimises loss w i (Int.fract (candidate loss w i)) := by
  constructor <;> intro θ
  · rw [h, h, candidate_value h]
    linarith [neg_abs_le_sin A (2 * π * θ + B)]
  · rw [h, h, sin_fract, candidate_value h]
    linarith [neg_abs_le_sin A (2 * π * θ + B)]

/-- **C60 (the update), partial.** When the value computed is not negative, the updated weight minimises the loss over the coordinate.
Missing: negative values, for which the update takes the absolute value; see `C60_refuted_negative`. -/
theorem C60_update_partial {loss : List ℝ → ℝ} {w : List ℝ} {i : Nat} {A B C : ℝ} (h : Sinusoid loss w i A B C) (hx : 0 ≤ candidate loss w i)
    (θ : ℝ) : loss (update loss w i) ≤ loss (w.set i θ) := by
  unfold update project
  rw [abs_of_nonneg hx]
  exact (C60_candidate h).2 θ

/-- **C60, refuted when the value computed is negative.** Exactly which loss results then: `|A| cos (2 B) + C`, instead of the least
value `-|A| + C`. -/
theorem C60_refuted_negative {loss : List ℝ → ℝ} {w : List ℝ} {i : Nat} {A B C : ℝ} (h : Sinusoid loss w i A B C) (hx : candidate loss w i < 0) :
    loss (update loss w i) = |A| * cos (2 * B) + C := by
  unfold update project
  rw [abs_of_neg hx, h, sin_fract]
  have hv := candidate_value h
  set x := candidate loss w i
  by_cases hA : A = 0
  · simp [hA]
  have e : 2 * π * -x + B = 2 * B - (2 * π * x + B) := by ring
  rw [e, sin_sub]
  have hsq : |A| * |A| = A * A := abs_mul_abs_self A
  have hc : cos (2 * π * x + B) = 0 := by
    have h1 := sin_sq_add_cos_sq (2 * π * x + B)
    have h2 : (A * sin (2 * π * x + B)) ^ 2 = A ^ 2 := by rw [hv]; rw [neg_sq, sq_abs]
    have h3 : A ^ 2 * cos (2 * π * x + B) ^ 2 = 0 := by nlinarith
    have h4 : A ^ 2 ≠ 0 := pow_ne_zero 2 hA
    exact pow_eq_zero_iff (two_ne_zero) |>.1 ((mul_eq_zero.1 h3).resolve_left h4)
  rw [hc]
  have : A * (sin (2 * B) * 0 - cos (2 * B) * sin (2 * π * x + B)) = -cos (2 * B) * (A * sin (2 * π * x + B)) := by ring
  rw [this, hv]; ring

/-- The loss `sin (2 π θ)` of one parameter. -/
noncomputable def demoLoss (w : List ℝ) : ℝ := sin (2 * π * w.getD 0 0)

theorem demoLoss_sinusoid (x : ℝ) : Sinusoid demoLoss [x] 0 1 0 0 := by
  intro θ; simp [demoLoss]

/-- **C60, refuted**: from weight 0 the update goes to the maximum of the loss instead of the minimum, so the loss grows from 0 to 1. -/
theorem C60_refuted_maximum : update demoLoss [0] 0 = [1 / 4] ∧ demoLoss [0] = 0 ∧ demoLoss (update demoLoss [0] 0) = 1 ∧
    ∀ θ, demoLoss [θ] ≤ demoLoss (update demoLoss [0] 0) := by
  have hcand : candidate demoLoss [0] 0 = -(1 / 4) := by
    unfold candidate arctan2 demoLoss
    have e1 : 2 * π * (1 / 4 : ℝ) = π / 2 := by ring
    have e2 : 2 * π * (-(1 / 4) : ℝ) = -(π / 2) := by ring
    simp only [List.getD_cons_zero, List.set_cons_zero, zero_add, zero_sub, mul_zero, sin_zero]
    rw [e1, e2, sin_neg, sin_pi_div_two]
    have : (⟨1 - -1, -1 - -1⟩ : ℂ) = ((2 : ℝ) : ℂ) := by
      apply Complex.ext <;> norm_num
    rw [this, Complex.arg_ofReal_of_nonneg (by norm_num)]
    norm_num
  have hu : update demoLoss [0] 0 = [1 / 4] := by
    unfold update project
    rw [hcand]
    have : Int.fract |(-(1 / 4) : ℝ)| = 1 / 4 := by
      rw [abs_neg, abs_of_pos (by norm_num), Int.fract_eq_self]; norm_num
    rw [this]; rfl
  have h1 : demoLoss (update demoLoss [0] 0) = 1 := by
    rw [hu]
    unfold demoLoss
    rw [List.getD_cons_zero, show 2 * π * (1 / 4 : ℝ) = π / 2 by ring, sin_pi_div_two]
  refine ⟨hu, by simp [demoLoss], h1, fun θ => ?_⟩
  rw [h1]
  unfold demoLoss
  exact sin_le_one _

/-- The hypotheses of `C60_update_partial` are met: for the loss `- sin (2 π θ)`, from weight `1/2` the value computed is `1/4`. -/
example : candidate (fun w => -demoLoss w) [1 / 2] 0 = 1 / 4 ∧ Sinusoid (fun w => -demoLoss w) [1 / 2] 0 (-1) 0 0 := by
  refine ⟨?_, fun θ => by simp [demoLoss]⟩
  unfold candidate arctan2 demoLoss
  have e1 : 2 * π * (1 / 2 + 1 / 4 : ℝ) = π / 2 + π := by ring
  have e2 : 2 * π * (1 / 2 - 1 / 4 : ℝ) = π / 2 := by ring
  have e3 : 2 * π * (1 / 2 : ℝ) = π := by ring
  simp only [List.getD_cons_zero, List.set_cons_zero]
  rw [e1, e2, e3, sin_add_pi, sin_pi_div_two, sin_pi]
  have : (⟨- -1 - -1, 2 * -0 - - -1 - -1⟩ : ℂ) = ((2 : ℝ) : ℂ) := by
    apply Complex.ext <;> norm_num
  rw [this, Complex.arg_ofReal_of_nonneg (by norm_num)]
  norm_num

/-! ## Sweeps -/

/-- No update of the sweep computes a negative value. -/
def NonNegative (loss : List ℝ → ℝ) (w : List ℝ) : List Nat → Prop
  | [] => True
  | i :: is => 0 ≤ candidate loss w i ∧ NonNegative loss (update loss w i) is

theorem update_length (loss : List ℝ → ℝ) (w : List ℝ) (i : Nat) : (update loss w i).length = w.length := by simp [update]

theorem sweep_length (loss : List ℝ → ℝ) (w : List ℝ) (is : List Nat) : (sweep loss w is).length = w.length := by
  induction is generalizing w with
  | nil => rfl
  | cons i is ih =>
    have : sweep loss w (i :: is) = sweep loss (update loss w i) is := rfl
    rw [this, ih, update_length]

/-- **C60 (sweep).** A call of `backward` visits every parameter: afterwards there are as many weights as before, each in `[0, 1)`; the
loss returned is the loss at the weights left in the model, and `step` does not change them. -/
theorem C60_sweep (loss : List ℝ → ℝ) (w : List ℝ) :
    (backward loss w).1.length = w.length ∧ (∀ x ∈ (backward loss w).1, 0 ≤ x ∧ x < 1) ∧ (backward loss w).2 = loss (step (backward loss w).1) := by
  refine ⟨sweep_length _ _ _, ?_, rfl⟩
  have key : ∀ (is : List Nat) (v : List ℝ) (done : List Nat), (∀ i, i < v.length → i ∈ done ∨ i ∈ is) →
      (∀ i ∈ done, ∀ x, v[i]? = some x → 0 ≤ x ∧ x < 1) → ∀ x ∈ sweep loss v is, 0 ≤ x ∧ x < 1 := by
    intro is
    induction is with
    | nil =>
      intro v done hall hd x hx
      obtain ⟨i, hi, rfl⟩ := List.mem_iff_getElem.1 hx
      rcases hall i hi with h | h
      · exact hd i h _ (List.getElem?_eq_getElem hi)
      · simp at h
    | cons i is ih =>
      intro v done hall hd
      refine ih (update loss v i) (i :: done) ?_ ?_
      · intro j hj
        rw [update_length] at hj
        rcases hall j hj with h | h
        · exact .inl (by simp [h])
        · rcases List.mem_cons.1 h with rfl | h
          · exact .inl (by simp)
          · exact .inr h
      · intro j hj x hx
        unfold update at hx
        rw [List.getElem?_set] at hx
        by_cases hij : i = j
        · subst hij
          simp only [if_true] at hx
          split at hx
          · cases hx
            exact ⟨Int.fract_nonneg _, Int.fract_lt_one _⟩
          · cases hx
        · rw [if_neg hij] at hx
          rcases List.mem_cons.1 hj with rfl | hj
          · exact absurd rfl hij
          · exact hd j hj x hx
  exact key (List.range w.length) w [] (fun i hi => .inr (List.mem_range.2 hi)) (by simp)

/-- **C60 (descent), partial.** If the loss is a sinusoid in every coordinate and no value computed is negative, the loss returned is at
most the loss before. Missing: negative values. -/
theorem C60_descent_partial (loss : List ℝ → ℝ) (hs : ∀ w i, ∃ A B C, Sinusoid loss w i A B C) (w : List ℝ)
    (hn : NonNegative loss w (List.range w.length)) : (backward loss w).2 ≤ loss w := by
  have key : ∀ (is : List Nat) (v : List ℝ), NonNegative loss v is → loss (sweep loss v is) ≤ loss v := by
    intro is
    induction is with
    | nil => intro v _; exact le_refl _
    | cons i is ih =>
      intro v hv
      obtain ⟨A, B, C, h⟩ := hs v i
      refine (ih (update loss v i) hv.2).trans ?_
      have := C60_update_partial h hv.1 (v.getD i 0)
      rwa [set_getD_self] at this
  exact key _ w hn

/-- **C60, refuted: the loss never increases over a sweep.** -/
theorem C60_refuted_descent : ∃ (loss : List ℝ → ℝ) (w : List ℝ), (∀ x ∈ w, 0 ≤ x ∧ x < 1) ∧ (∀ θ : ℝ, Sinusoid loss [θ] 0 1 0 0) ∧ loss w < (backward loss w).2 := by
  obtain ⟨h1, h2, h3, h4⟩ := C60_refuted_maximum
  refine ⟨demoLoss, [0], by simp, demoLoss_sinusoid, ?_⟩
  have : (backward demoLoss [0]).2 = demoLoss (update demoLoss [0] 0) := rfl
  rw [this, h2, h3]; norm_num

end Roto
end Train
end Lambeq
