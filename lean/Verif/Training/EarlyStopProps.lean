import Verif.Training.Trainer
import Mathlib.Tactic.Linarith
import Mathlib.Data.List.Induction
import Mathlib.Algebra.Order.Ring.Rat

/-!
# C38: early stopping
-/

namespace Lambeq
namespace Train

/-! ## Specification -/

/-- `a` is strictly better than `b`. -/
def Better (minimize : Bool) (a b : ℚ) : Prop := if minimize then a < b else b < a

/-- The value at position `i` is as good as any, and no later value is as good: `i` is the last position of the best
value. -/
def LastBest (minimize : Bool) (h : List ℚ) (i : Nat) : Prop :=
  ∃ v, h[i]? = some v ∧ (∀ (j : Nat) (w : ℚ), h[j]? = some w → ¬ Better minimize w v) ∧
    ∀ (j : Nat) (w : ℚ), i < j → h[j]? = some w → Better minimize v w

/-! ## The check on one history -/

theorem factor_lt (m : Bool) (a b : ℚ) : factor m * a < factor m * b ↔ Better m a b := by
  cases m <;> simp [factor, Better]

theorem foldl_min_lt (c : ℚ) (xs : List ℚ) (x : ℚ) : c < xs.foldl min x ↔ c < x ∧ ∀ y ∈ xs, c < y := by
  induction xs generalizing x with
  | nil => simp
  | cons y xs ih => rw [List.foldl_cons, ih]; simp; tauto

theorem pySlice_neg_from {α : Type} (l : List α) (k : Nat) (hk : 0 < k) (hl : k ≤ l.length) :
    pySlice l (some (-(k : Int))) none = l.drop (l.length - k) := by
  simp only [pySlice, clampIdx]
  rw [if_pos (by omega)]
  have : ((l.length : Int) + -(k : Int)).toNat = l.length - k := by omega
  rw [this]
  rw [List.take_of_length_le (by simp)]

theorem pyGet_neg {α : Type} (l : List α) (k : Nat) (h : k < l.length) :
    pyGet l (-(k : Int) - 1) = .ok (l[l.length - 1 - k]'(by omega)) := by
  have hi : (if (-(k : Int) - 1) < 0 then (l.length : Int) + (-(k : Int) - 1) else (-(k : Int) - 1)) = ((l.length - 1 - k : Nat) : Int) := by
    rw [if_pos (by omega)]; omega
  simp only [pyGet, hi]
  rw [if_neg (by omega), Int.toNat_natCast, List.getElem?_eq_getElem (by omega)]

/-- **C38 (one check).** With interval `k ≥ 1`, the check says stop exactly when more than `k` values are recorded and
each of the last `k` is strictly worse than the one before them. With interval 0 or none it never says stop. -/
theorem C38_check (vals : List ℚ) (m : Bool) :
    earlyStop vals none m = .ok false ∧ (∃ b, earlyStop vals (some 0) m = .ok b ∧ b = false) ∧
    ∀ k, 0 < k → ∃ b, earlyStop vals (some k) m = .ok b ∧
      (b = true ↔ ∃ pre r last, vals = pre ++ r :: last ∧ last.length = k ∧ ∀ w ∈ last, Better m r w) := by
  refine ⟨rfl, ?_, ?_⟩
  · simp only [earlyStop]
    by_cases h : vals.length > 0
    · rw [if_pos h, pyGet_neg _ _ h]
      have hs : pySlice vals (some (-((0 : Nat) : Int))) none = vals := by
        have := pySlice_nat_from vals 0
        simpa using this
      rw [hs]
      cases vals with
      | nil => simp at h
      | cons x xs =>
        refine ⟨_, rfl, ?_⟩
        simp only [List.map_cons, decide_eq_false_iff_not, foldl_min_lt, not_and_or]
        have hl : ((x :: xs)[(x :: xs).length - 1 - 0]'(by simp)) ∈ x :: xs := List.getElem_mem _
        generalize ((x :: xs)[(x :: xs).length - 1 - 0]'(by simp)) = v at hl
        rcases List.mem_cons.1 hl with rfl | hl
        · left; exact lt_irrefl _
        · right
          intro hh
          exact lt_irrefl _ (hh _ (List.mem_map_of_mem hl))
    · rw [if_neg h]; exact ⟨_, rfl, rfl⟩
  · intro k hk
    simp only [earlyStop]
    by_cases h : vals.length > k
    · rw [if_pos h, pyGet_neg _ _ h, pySlice_neg_from _ _ hk (by omega)]
      have hsplit : vals = vals.take (vals.length - 1 - k) ++ vals[vals.length - 1 - k]'(by omega) :: vals.drop (vals.length - k) := by
        conv_lhs => rw [← List.take_append_drop (vals.length - 1 - k) vals]
        rw [List.drop_eq_getElem_cons (by omega)]
        congr 3; omega
      generalize hr : vals[vals.length - 1 - k]'(by omega) = r at hsplit ⊢
      generalize hd : vals.drop (vals.length - k) = last at hsplit ⊢
      have hlen : last.length = k := by rw [← hd]; simp; omega
      cases last with
      | nil => simp at hlen; omega
      | cons x xs =>
        refine ⟨_, rfl, ?_⟩
        simp only [List.map_cons, decide_eq_true_eq, foldl_min_lt, factor_lt, List.mem_map, forall_exists_index, and_imp,
          forall_apply_eq_imp_iff₂]
        constructor
        · rintro ⟨h1, h2⟩
          refine ⟨_, r, x :: xs, hsplit, hlen, ?_⟩
          intro w hw
          rcases List.mem_cons.1 hw with rfl | hw
          · exact h1
          · exact h2 w hw
        · rintro ⟨pre, r', last', e1, e2, e3⟩
          rw [hsplit] at e1
          obtain ⟨-, e⟩ := List.append_inj' e1 (by simp only [List.length_cons] at hlen ⊢; omega)
          cases e
          exact ⟨e3 x (by simp), fun w hw => e3 w (by simp [hw])⟩
    · rw [if_neg h]
      refine ⟨false, rfl, ?_⟩
      simp only [Bool.false_eq_true, false_iff]
      rintro ⟨pre, r, last, e1, e2, e3⟩
      rw [e1] at h
      simp at h
      omega

/-- Non-vacuity: 3 is better than the two values after it. -/
example : earlyStop [5, 3, 4, 4] (some 2) true = .ok true ∧ earlyStop [5, 3, 4, 3] (some 2) true = .ok false ∧
    earlyStop [1, 3, 2] (some 1) false = .ok true := by decide +kernel

/-! ## The check along a run -/

theorem better_trans {m : Bool} {a b c : ℚ} (h1 : Better m a b) (h2 : ¬ Better m c b) : Better m a c := by
  cases m <;> simp [Better] at * <;> linarith

theorem exists_lastBest (m : Bool) (h : List ℚ) (hne : h ≠ []) : ∃ i, LastBest m h i := by
  induction h using List.reverseRecOn with
  | nil => exact absurd rfl hne
  | append_singleton h x ih =>
    by_cases hh : h = []
    · subst hh
      refine ⟨0, x, by simp, ?_, ?_⟩
      · intro j w hj
        cases j with
        | zero => simp at hj; subst hj; cases m <;> simp [Better]
        | succ j => simp at hj
      · intro j w hj hw
        cases j with
        | zero => omega
        | succ j => simp at hw
    · obtain ⟨i, v, h1, h2, h3⟩ := ih hh
      have hil : i < h.length := (List.getElem?_eq_some_iff.1 h1).1
      by_cases hx : Better m v x
      · refine ⟨i, v, by rw [List.getElem?_append_left hil]; exact h1, ?_, ?_⟩
        · intro j w hj
          by_cases hjl : j < h.length
          · rw [List.getElem?_append_left hjl] at hj; exact h2 j w hj
          · have := (List.getElem?_eq_some_iff.1 hj).1
            simp at this
            obtain rfl : j = h.length := by omega
            simp at hj; subst hj
            cases m <;> simp [Better] at hx ⊢ <;> linarith
        · intro j w hij hj
          by_cases hjl : j < h.length
          · rw [List.getElem?_append_left hjl] at hj; exact h3 j w hij hj
          · have := (List.getElem?_eq_some_iff.1 hj).1
            simp at this
            obtain rfl : j = h.length := by omega
            simp at hj; subst hj
            exact hx
      · refine ⟨h.length, x, by simp, ?_, ?_⟩
        · intro j w hj
          by_cases hjl : j < h.length
          · rw [List.getElem?_append_left hjl] at hj
            intro hb
            exact h2 j w hj (by cases m <;> simp [Better] at * <;> linarith)
          · have := (List.getElem?_eq_some_iff.1 hj).1
            simp at this
            obtain rfl : j = h.length := by omega
            simp at hj; subst hj
            cases m <;> simp [Better]
        · intro j w hij hj
          have := (List.getElem?_eq_some_iff.1 hj).1
          simp at this; omega

/-- **C38 (a run).** Let the check be made after every new value, with interval `k ≥ 1`, and let it not have stopped
before. Then it stops now exactly if the best value of the whole history was last seen `k` validation cycles ago. -/
theorem C38_first_stop (m : Bool) (k : Nat) (hk : 0 < k) (h : List ℚ)
    (hfirst : ∀ p, p <+: h → p ≠ h → earlyStop p (some k) m = .ok false) :
    ∃ b, earlyStop h (some k) m = .ok b ∧ (b = true ↔ ∃ i, i + k + 1 = h.length ∧ LastBest m h i) := by
  obtain ⟨b, hb, hiff⟩ := (C38_check h m).2.2 k hk
  refine ⟨b, hb, hiff.trans ⟨?_, ?_⟩⟩
  · rintro ⟨pre, r, last, e1, e2, e3⟩
    obtain ⟨i, v, g1, g2, g3⟩ := exists_lastBest m h (by rw [e1]; simp)
    refine ⟨i, ?_, v, g1, g2, g3⟩
    have hil : i < h.length := (List.getElem?_eq_some_iff.1 g1).1
    have hlen : h.length = pre.length + 1 + k := by rw [e1]; simp; omega
    -- the last best position is not after `r`
    have h1 : i ≤ pre.length := by
      by_contra hc
      have hr : h[pre.length]? = some r := by rw [e1]; simp
      have hv : v ∈ last := by
        rw [e1, List.getElem?_append_right (by omega), show i - pre.length = (i - pre.length - 1) + 1 by omega,
          List.getElem?_cons_succ] at g1
        exact List.mem_of_getElem? g1
      exact g2 _ _ hr (e3 v hv)
    -- and not before, since the check would have stopped there
    rcases Nat.lt_or_ge i pre.length with hlt | hge
    · exfalso
      have hp := hfirst (h.take (i + k + 1)) (List.take_prefix _ _) (by
        intro e; have := congrArg List.length e; simp at this; omega)
      obtain ⟨b', hb', hiff'⟩ := (C38_check (h.take (i + k + 1)) m).2.2 k hk
      rw [hp] at hb'
      injection hb' with hb'
      have : b' = true := by
        refine hiff'.2 ⟨h.take i, v, (h.drop (i + 1)).take k, ?_, ?_, ?_⟩
        · rw [show i + k + 1 = i + (1 + k) by omega, List.take_add]
          congr 1
          have : h.drop i = v :: h.drop (i + 1) := by
            rw [List.drop_eq_getElem_cons hil]
            congr 1
            rw [List.getElem?_eq_getElem hil] at g1
            exact Option.some.inj g1
          rw [this, Nat.add_comm, List.take_succ_cons]
        · simp; omega
        · intro w hw
          obtain ⟨j, hj⟩ := List.getElem?_of_mem hw
          have hjk : j < k := by
            have := (List.getElem?_eq_some_iff.1 hj).1
            simp at this; omega
          rw [List.getElem?_take_of_lt hjk, List.getElem?_drop] at hj
          exact g3 _ w (by omega) hj
      rw [this] at hb'
      cases hb'
    · omega
  · rintro ⟨i, hi, v, g1, g2, g3⟩
    have hil : i < h.length := by omega
    refine ⟨h.take i, v, h.drop (i + 1), ?_, by simp; omega, ?_⟩
    · conv_lhs => rw [← List.take_append_drop i h]
      rw [List.drop_eq_getElem_cons hil]
      congr 2
      rw [List.getElem?_eq_getElem hil] at g1
      exact Option.some.inj g1
    · intro w hw
      obtain ⟨j, hj⟩ := List.getElem?_of_mem hw
      rw [List.getElem?_drop] at hj
      exact g3 _ w (by omega) hj

/-- Non-vacuity: the first stop of this run is at its end. -/
example : (∀ p ∈ [[5], [5, 3], [5, 3, 4]], earlyStop p (some 2) true = .ok false) ∧ earlyStop [5, 3, 4, 4] (some 2) true = .ok true := by
  decide +kernel

/-- **C38, refuted as documented** (`training is stopped if the validation loss does not improve for k validation cycles`).
A loss that never changes never improves, and training is never stopped, for any `k` and any number of cycles. -/
theorem C38_refuted_plateau (k n : Nat) (c : ℚ) (m : Bool) : earlyStop (List.replicate n c) (some k) m = .ok false := by
  rcases Nat.eq_zero_or_pos k with rfl | hk
  · obtain ⟨b, hb, rfl⟩ := (C38_check (List.replicate n c) m).2.1
    exact hb
  · obtain ⟨b, hb, hiff⟩ := (C38_check (List.replicate n c) m).2.2 k hk
    cases hbb : b with
    | false => rw [hb, hbb]
    | true =>
      obtain ⟨pre, r, last, e1, e2, e3⟩ := hiff.1 hbb
      cases last with
      | nil => simp at e2; omega
      | cons w last =>
        have hr : r = c := List.eq_of_mem_replicate (n := n) (by rw [e1]; simp)
        have hw : w = c := List.eq_of_mem_replicate (n := n) (by rw [e1]; simp)
        have := e3 w (by simp)
        rw [hr, hw] at this
        cases m <;> simp [Better] at this

end Train
end Lambeq
