import Verif.Training.Dataset
import Mathlib.Data.List.Chain
import Mathlib.Tactic.Ring
import Mathlib.Tactic.Linarith

/-!
# C37: iterating over a dataset
-/

namespace Lambeq
namespace Train

variable {α β : Type}

/-- Specification: cut a list into consecutive pieces of length `b`, the last one possibly shorter. -/
structure Cut (b : Nat) (l : List α) (pieces : List (List α)) : Prop where
  join : pieces.flatten = l
  full : ∀ p ∈ pieces.dropLast, p.length = b
  last : ∀ p ∈ pieces.getLast?, 0 < p.length ∧ p.length ≤ b

theorem rangeFrom_nil {stop step start : Nat} (h : 0 < step) (hs : stop ≤ start) : rangeFrom stop step h start = [] := by
  rw [rangeFrom, if_neg (by omega)]

theorem rangeFrom_cons {stop step start : Nat} (h : 0 < step) (hs : start < stop) :
    rangeFrom stop step h start = start :: rangeFrom stop step h (start + step) := by
  rw [rangeFrom, if_pos hs]

theorem cut_from (b : Nat) (h : 0 < b) (l : List α) (k : Nat) :
    Cut b (l.drop k) ((rangeFrom l.length b h k).map (fun s => (l.drop s).take b)) := by
  by_cases hk : k < l.length
  · have ih := cut_from b h l (k + b)
    rw [rangeFrom_cons h hk]
    refine ⟨?_, ?_, ?_⟩
    · rw [List.map_cons, List.flatten_cons, ih.join, ← List.drop_drop, List.take_append_drop]
    · rw [List.map_cons]
      intro p hp
      by_cases hk2 : k + b < l.length
      · rw [List.dropLast_cons_of_ne_nil (by rw [rangeFrom_cons h hk2]; simp)] at hp
        rcases List.mem_cons.1 hp with rfl | hp
        · simp; omega
        · exact ih.full p hp
      · rw [rangeFrom_nil h (by omega)] at hp
        simp at hp
    · intro p hp
      by_cases hk2 : k + b < l.length
      · refine ih.last p ?_
        rw [List.map_cons] at hp
        have : (List.map (fun s => List.take b (List.drop s l)) (rangeFrom l.length b h (k + b))) ≠ [] := by
          rw [rangeFrom_cons h hk2]; simp
        obtain ⟨x, xs, hx⟩ := List.exists_cons_of_ne_nil this
        rw [hx] at hp ⊢
        rwa [List.getLast?_cons_cons] at hp
      · rw [rangeFrom_nil h (by omega)] at hp
        simp at hp
        subst hp
        simp; omega
  · rw [rangeFrom_nil h (by omega), List.drop_eq_nil_of_le (by omega)]
    exact ⟨rfl, by simp, by simp⟩
  termination_by l.length - k

theorem rangeFrom_length (b : Nat) (h : 0 < b) (n k : Nat) : (rangeFrom n b h k).length = (n - k + (b - 1)) / b := by
  by_cases hk : k < n
  · rw [rangeFrom_cons h hk, List.length_cons, rangeFrom_length b h n (k + b)]
    by_cases h2 : k + b ≤ n
    · rw [show n - k + (b - 1) = (n - (k + b) + (b - 1)) + b by omega, Nat.add_div_right _ h]
    · rw [show n - (k + b) = 0 by omega, Nat.div_eq_of_lt (by omega : 0 + (b - 1) < b)]
      rw [show n - k + (b - 1) = (n - k - 1) + b by omega, Nat.add_div_right _ h, Nat.div_eq_of_lt (by omega)]
  · rw [rangeFrom_nil h (by omega), show n - k = 0 by omega, Nat.div_eq_of_lt (by omega)]
    rfl
  termination_by n - k

theorem ceil_eq (n b : Nat) (h : 0 < b) : -(Int.fdiv (-(n : Int)) (b : Int)) = (((n + (b - 1)) / b : Nat) : Int) := by
  rw [Int.fdiv_eq_ediv_of_nonneg _ (by omega : (0 : Int) ≤ (b : Int))]
  have h1 : (((n + (b - 1)) / b : Nat) : Int) = ((n : Int) + ((b : Int) - 1)) / (b : Int) := by
    rw [Int.natCast_ediv]; congr 1; omega
  rw [h1]
  have hb : (0 : Int) < (b : Int) := by omega
  obtain ⟨q, r, hq⟩ : ∃ q r : Int, q = (n : Int) / b ∧ r = (n : Int) % b := ⟨_, _, rfl, rfl⟩
  have hn : (n : Int) = b * q + r := by rw [hq.1, hq.2]; exact (Int.mul_ediv_add_emod _ _).symm
  have hr0 : 0 ≤ r := hq.2 ▸ Int.emod_nonneg _ (by omega)
  have hr1 : r < b := hq.2 ▸ Int.emod_lt_of_pos _ hb
  rw [hn]
  by_cases hz : r = 0
  · rw [hz, Int.add_zero, show -((b : Int) * q) = b * (-q) by ring, Int.mul_ediv_cancel_left _ (by omega),
      Int.add_comm, Int.add_mul_ediv_left _ _ (by omega), Int.ediv_eq_zero_of_lt (by omega) (by omega)]
    omega
  · rw [show -((b : Int) * q + r) = (b - r) + b * (-q - 1) by ring, Int.add_mul_ediv_left _ _ (by omega),
      Int.ediv_eq_zero_of_lt (by omega) (by omega), show (b : Int) * q + r + (b - 1) = (r - 1) + b * (q + 1) by ring,
      Int.add_mul_ediv_left _ _ (by omega), Int.ediv_eq_zero_of_lt (by omega) (by omega)]
    omega

/-- **C37.** For every dataset of positive (or zero) batch size that can be constructed, and every way `perm` of
shuffling: one pass over it succeeds and yields batches of equally many data points and targets. The data points, read
along the batches, are the dataset in order if `shuffle=False` and a rearrangement of the pairs if `shuffle=True`; every
batch but the last has exactly `batch_size` elements and the last is not empty; there are `batches_per_epoch` of them; and
batch size 0 gives one batch. -/
theorem C37_iteration (data : List α) (targets : List β) (b : Nat) (shuffle : Bool) (hlen : data.length = targets.length)
    (hne : data ≠ []) (perm : List (α × β) → List (α × β)) (hperm : ∀ l, (perm l).Perm l) :
    ∃ d batches, mkDataset data targets b shuffle = .ok d ∧ d.iter perm = .ok batches
      ∧ (∀ p ∈ batches, p.1.length = p.2.length)
      ∧ (∃ pairs, (if shuffle then pairs.Perm (data.zip targets) else pairs = data.zip targets)
          ∧ Cut (if b = 0 then data.length else b) pairs (batches.map (fun p => p.1.zip p.2)))
      ∧ (batches.length : Int) = d.batchesPerEpoch ∧ (b = 0 → batches.length = 1) := by
  set b' := if b = 0 then data.length else b with hb'
  have hpos : 0 < b' := by
    have := List.length_pos_of_ne_nil hne
    rw [hb']; split <;> omega
  have hmk : mkDataset data targets b shuffle = .ok ⟨data, targets, b', shuffle, -(Int.fdiv (-(data.length : Int)) b')⟩ := by
    unfold mkDataset
    rw [if_neg (by simpa using hlen)]
    have : (if (b : Int) = 0 then (data.length : Int) else (b : Int)) = (b' : Int) := by
      rw [hb']; by_cases h : b = 0 <;> simp [h]
    simp only [this]
    rw [if_neg (by omega)]
  obtain ⟨pairs, hpairs, hnew⟩ : ∃ pairs, (if shuffle then pairs.Perm (data.zip targets) else pairs = data.zip targets)
      ∧ (if shuffle then shuffleData perm data targets else .ok (data, targets)) = .ok pairs.unzip := by
    cases shuffle with
    | false => exact ⟨data.zip targets, by simp, by simp [List.unzip_zip hlen]⟩
    | true =>
      refine ⟨perm (data.zip targets), by simpa using hperm _, ?_⟩
      simp only [if_true, shuffleData]
      rw [if_neg]
      have : (data.zip targets) ≠ [] := by
        intro h
        have := congrArg List.length h
        simp [← hlen] at this
        exact hne this
      intro h
      have h' : perm (data.zip targets) = [] := by simpa using h
      exact this ((List.perm_nil.1 (h' ▸ (hperm (data.zip targets)).symm)))
  have hpl : pairs.length = data.length := by
    cases shuffle with
    | false => simp only [Bool.false_eq_true, if_false] at hpairs; rw [hpairs]; simp [← hlen]
    | true => simp only [if_true] at hpairs; rw [hpairs.length_eq]; simp [← hlen]
  have hslice : ∀ {γ : Type} (l : List γ) (s : Nat), pySlice l (some (s : Int)) (some ((s : Int) + (b' : Int))) = (l.drop s).take b' := by
    intro γ l s
    rw [show (s : Int) + (b' : Int) = ((s + b' : Nat) : Int) by omega, pySlice_nat_nat, Nat.add_sub_cancel_left]
  refine ⟨_, (rangeFrom data.length b' hpos 0).map (fun s => ((pairs.unzip.1.drop s).take b', (pairs.unzip.2.drop s).take b')), hmk,
    ?_, ?_, ⟨pairs, hpairs, ?_⟩, ?_, ?_⟩
  · unfold Dataset.iter
    have hs : Dataset.source perm ⟨data, targets, (b' : Int), shuffle, -(Int.fdiv (-(data.length : Int)) b')⟩ = .ok pairs.unzip := hnew
    rw [hs]
    have : rangeStep data.length (b' : Int) = .ok (rangeFrom data.length b' hpos 0) := by
      unfold rangeStep
      rw [dif_pos (by simpa using hpos)]
      rfl
    simp only [this]
    refine congrArg Except.ok (List.map_congr_left (fun s _ => ?_))
    rw [hslice, hslice]
  · intro p hp
    obtain ⟨s, _, rfl⟩ := List.mem_map.1 hp
    simp
  · have hc := cut_from b' hpos pairs 0
    rw [hpl, List.drop_zero] at hc
    rw [List.map_map]
    have : (fun s => (pairs.drop s).take b') = (fun p : List α × List β => p.1.zip p.2) ∘ fun s => ((pairs.unzip.1.drop s).take b', (pairs.unzip.2.drop s).take b') := by
      funext s
      simp only [Function.comp, List.unzip_fst, List.unzip_snd, ← List.map_drop, ← List.map_take]
      have := List.zip_unzip ((pairs.drop s).take b')
      simp only [List.unzip_fst, List.unzip_snd] at this
      exact this.symm
    rw [this] at hc
    exact hc
  · rw [List.length_map, rangeFrom_length, ceil_eq _ _ hpos, Nat.sub_zero]
  · intro h0
    have hd : b' = data.length := by rw [hb', if_pos h0]
    rw [List.length_map, rangeFrom_length, Nat.sub_zero, hd]
    have := List.length_pos_of_ne_nil hne
    rw [show data.length + (data.length - 1) = (data.length - 1) + data.length by omega, Nat.add_div_right _ this,
      Nat.div_eq_of_lt (by omega)]

/-- Non-vacuity: five points in batches of two, shuffled by reversal. -/
example : (do let d ← mkDataset [1, 2, 3, 4, 5] ["a", "b", "c", "d", "e"] 2 true; d.iter List.reverse)
    = .ok [([5, 4], ["e", "d"]), ([3, 2], ["c", "b"]), ([1], ["a"])] := by decide +kernel

/-- Data and targets of different lengths are refused, whatever the other arguments. -/
theorem C37_length_mismatch (data : List α) (targets : List β) (b : Int) (s : Bool) (h : data.length ≠ targets.length) :
    mkDataset data targets b s = .error .valueError := if_pos h

example : (mkDataset [1] ([] : List Nat) 1 true).map (fun _ => ()) = .error .valueError := by
  rw [C37_length_mismatch _ _ _ _ (by simp)]; rfl

/-- **C37, refuted for empty datasets.** With the default batch size the constructor raises `ZeroDivisionError`; with a
positive batch size it succeeds, and iterating raises `ValueError` if shuffling is on (the default) although there are no
batches to yield. -/
theorem C37_refuted_empty (b : Nat) (hb : 0 < b) (s : Bool) :
    (mkDataset ([] : List α) ([] : List β) 0 s).map (fun _ => ()) = .error .zeroDivisionError ∧
    (∃ d : Dataset α β, mkDataset [] [] b true = .ok d ∧ d.batchesPerEpoch = 0 ∧
      ∀ perm : List (α × β) → List (α × β), (∀ l, (perm l).Perm l) → d.iter perm = .error .valueError) ∧
    (∃ d : Dataset α β, mkDataset [] [] b false = .ok d ∧ ∀ perm, d.iter perm = .ok []) := by
  have hb0 : (b : Int) ≠ 0 := by omega
  refine ⟨by simp [mkDataset, Except.map], ⟨⟨[], [], b, true, 0⟩, ?_, rfl, ?_⟩, ⟨⟨[], [], b, false, 0⟩, ?_, ?_⟩⟩
  · simp [mkDataset, hb.ne']
  · intro perm hp
    have : perm [] = [] := List.perm_nil.1 (hp [])
    simp [Dataset.iter, Dataset.source, shuffleData, this]; rfl
  · simp [mkDataset, hb.ne']
  · intro perm
    have hr : rangeStep 0 (b : Int) = .ok [] := by
      unfold rangeStep
      rw [dif_pos (by simpa using hb), rangeFrom_nil _ (Nat.le_refl 0)]
    simp only [Dataset.iter, Dataset.source, List.length_nil, hr]
    rfl

end Train
end Lambeq
