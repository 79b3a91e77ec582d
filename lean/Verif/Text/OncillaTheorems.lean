import Verif.Text.OncillaPredict
import Verif.Text.TreeNodesTheorems

/-!
# Types and parents from the scores of the Oncilla model (C104): proofs
-/

namespace Lambeq
namespace Oncilla
set_option linter.unusedSimpArgs false

/-! ## The greatest entry -/

theorem argmax_spec : ∀ {xs : List Logit}, xs ≠ [] → ∃ x, xs[argmax xs]? = some x ∧ ∀ d y, xs[d]? = some y → y ≤ x ∧ (d < argmax xs → y < x)
  | x :: xs, _ => by
    unfold argmax
    by_cases h : xs.all (fun y => decide (y ≤ x)) = true
    · rw [if_pos h]
      refine ⟨x, rfl, ?_⟩
      intro d y hd
      cases d with
      | zero => simp at hd; subst hd; exact ⟨le_refl _, by omega⟩
      | succ d =>
        simp only [List.getElem?_cons_succ] at hd
        simp only [List.all_eq_true, decide_eq_true_eq] at h
        exact ⟨h _ (List.mem_of_getElem? hd), by omega⟩
    · rw [if_neg h]
      have hne : xs ≠ [] := by rintro rfl; simp at h
      obtain ⟨m, hm, hall⟩ := argmax_spec hne
      simp only [Bool.not_eq_true, List.all_eq_false, decide_eq_true_eq, not_le] at h
      obtain ⟨z, hz, hxz⟩ := h
      obtain ⟨j, hj⟩ := List.getElem?_of_mem hz
      have hxm : x < m := lt_of_lt_of_le hxz (hall j z hj).1
      refine ⟨m, by simpa using hm, ?_⟩
      intro d y hd
      cases d with
      | zero => simp at hd; subst hd; exact ⟨hxm.le, fun _ => hxm⟩
      | succ d =>
        simp only [List.getElem?_cons_succ] at hd
        exact ⟨(hall d y hd).1, fun h => (hall d y hd).2 (by omega)⟩

theorem argmax_eq {xs : List Logit} {m : Nat} {x : Logit} (hm : xs[m]? = some x) (h : ∀ d y, xs[d]? = some y → y ≤ x ∧ (d < m → y < x)) : argmax xs = m := by
  have hne : xs ≠ [] := by rintro rfl; simp at hm
  obtain ⟨y, hy, hall⟩ := argmax_spec hne
  rcases Nat.lt_trichotomy (argmax xs) m with hlt | he | hgt
  · have h1 := (h _ _ hy).2 hlt
    exact absurd (hall _ _ hm).1 (not_le.2 h1)
  · exact he
  · have h1 := (hall _ _ hm).2 hgt
    exact absurd (h _ _ hy).1 (not_le.2 h1)

theorem fin_le {a b : ℚ} : fin a ≤ fin b ↔ a ≤ b := by unfold fin; rw [WithBot.coe_le_coe, WithTop.coe_le_coe]
theorem fin_lt {a b : ℚ} : fin a < fin b ↔ a < b := by unfold fin; rw [WithBot.coe_lt_coe, WithTop.coe_lt_coe]
theorem bot_lt_fin {a : ℚ} : (⊥ : Logit) < fin a := WithBot.bot_lt_coe _
theorem le_inf {a : Logit} : a ≤ inf := by
  unfold inf
  cases a with
  | none => exact bot_le
  | some a => exact WithBot.coe_le_coe.2 le_top

/-- The greatest entry of a row with masked columns. -/
theorem argmax_mask {row : List ℚ} {P : Nat → Prop} [DecidablePred P] {c : Nat} (hc : ¬ P c) (hl : c < row.length) :
    IsBest row (fun c => ¬ P c) (argmax (row.mapIdx (fun c x => if P c then ⊥ else fin x))) := by
  have hne : row.mapIdx (fun c x => if P c then (⊥ : Logit) else fin x) ≠ [] := by
    intro e
    have := congrArg List.length e
    simp at this
    subst this; simp at hl
  obtain ⟨x, hx, hall⟩ := argmax_spec hne
  generalize argmax (row.mapIdx (fun c x => if P c then (⊥ : Logit) else fin x)) = m at hx hall
  rw [List.getElem?_mapIdx] at hx
  obtain ⟨z, hz, rfl⟩ := Option.map_eq_some_iff.1 hx
  have hcx := hall c (fin (row[c])) (by rw [List.getElem?_mapIdx, List.getElem?_eq_getElem hl]; simp [hc])
  have hm : ¬ P m := by
    intro hm
    rw [if_pos hm] at hcx
    exact absurd hcx.1 (not_le.2 bot_lt_fin)
  refine ⟨hm, z, hz, ?_⟩
  intro d y hd hy
  have := hall d (fin y) (by rw [List.getElem?_mapIdx, hy]; simp [hd])
  rw [if_neg hm, fin_le, fin_lt] at this
  exact this

theorem IsBest.unique {row : List ℚ} {cols : Nat → Prop} {a b : Nat} (ha : IsBest row cols a) (hb : IsBest row cols b) : a = b := by
  obtain ⟨ca, x, hx, h1⟩ := ha
  obtain ⟨cb, y, hy, h2⟩ := hb
  rcases Nat.lt_trichotomy a b with h | h | h
  · exact absurd ((h2 a x ca hx).2 h) (not_lt.2 (h1 b y cb hy).1)
  · exact h
  · exact absurd ((h1 b y cb hy).2 h) (not_lt.2 (h2 a x ca hx).1)

theorem IsBest.congr {row : List ℚ} {P Q : Nat → Prop} {c : Nat} (h : IsBest row P c) (e : ∀ d, d < row.length → (P d ↔ Q d)) : IsBest row Q c := by
  obtain ⟨hc, x, hx, h⟩ := h
  refine ⟨(e c (List.getElem?_eq_some_iff.1 hx).1).1 hc, x, hx, fun d y hd hy => h d y ((e d (List.getElem?_eq_some_iff.1 hy).1).2 hd) hy⟩

/-! ## Positions of words -/

theorem firstPos_mono (k : Nat → Nat) {a b : Nat} (h : a ≤ b) : firstPos k a ≤ firstPos k b := by
  induction b with
  | zero => have : a = 0 := by omega
            subst this; exact le_refl _
  | succ b ih =>
    rcases Nat.lt_or_ge b a with h1 | h1
    · have : a = b + 1 := by omega
      subst this; exact le_refl _
    · exact le_trans (ih h1) (by simp [firstPos])

theorem firstPos_lt (k : Nat → Nat) {a b : Nat} (h : a < b) (hk : 0 < k a) : firstPos k a < firstPos k b := by
  have := firstPos_mono k (show a + 1 ≤ b from h)
  simp only [firstPos] at this
  omega

theorem flat_length (k : Nat → Nat) : ∀ (m a : Nat), firstPos k a + ((List.range' a m).flatMap (fun i => List.replicate (k i) (some i))).length = firstPos k (a + m)
  | 0, a => by simp
  | m + 1, a => by
    rw [List.range'_succ, List.flatMap_cons, List.length_append, List.length_replicate]
    have := flat_length k m (a + 1)
    rw [show a + (m + 1) = a + 1 + m by omega, ← this]
    simp only [firstPos]; omega

theorem flat_get (k : Nat → Nat) : ∀ (m a i j : Nat), a ≤ i → i < a + m → firstPos k i ≤ j → j < firstPos k (i + 1) →
    ((List.range' a m).flatMap (fun i => List.replicate (k i) (some i)))[j - firstPos k a]? = some (some i)
  | 0, a, i, j, h1, h2, _, _ => by omega
  | m + 1, a, i, j, h1, h2, h3, h4 => by
    rw [List.range'_succ, List.flatMap_cons]
    rcases Nat.lt_or_ge a i with h | h
    · have h5 := firstPos_mono k (show a + 1 ≤ i from h)
      have e : firstPos k (a + 1) = firstPos k a + k a := rfl
      rw [List.getElem?_append_right (by simp; omega), List.length_replicate, show j - firstPos k a - k a = j - firstPos k (a + 1) by omega]
      exact flat_get k m (a + 1) i j h (by omega) h3 h4
    · have : i = a := by omega
      subst this
      have e : firstPos k (i + 1) = firstPos k i + k i := rfl
      rw [List.getElem?_append_left (by simp; omega), List.getElem?_replicate, if_pos (by omega)]

theorem flat_length0 (k : Nat → Nat) (n : Nat) : ((List.range' 0 (n + 1)).flatMap (fun i => List.replicate (k i) (some i))).length + 1 = firstPos k (n + 1) := by
  have := flat_length k (n + 1) 0
  rw [show 0 + (n + 1) = n + 1 by omega, show firstPos k 0 = 1 from rfl] at this
  omega

theorem firstPos_pos (k : Nat → Nat) (i : Nat) : 0 < firstPos k i := firstPos_mono k (Nat.zero_le i)

theorem pieces_length (k : Nat → Nat) (n : Nat) : (pieces k n).length = firstPos k (n + 1) + 1 := by
  have := flat_length0 k n
  rw [pieces, List.range_eq_range', List.length_cons, List.length_append, List.length_singleton]
  omega

theorem pieces_get {k : Nat → Nat} {n i j : Nat} (hi : i ≤ n) (h1 : firstPos k i ≤ j) (h2 : j < firstPos k (i + 1)) : (pieces k n)[j]? = some (some i) := by
  have h0 := firstPos_pos k i
  have hl := flat_length0 k n
  have h3 := firstPos_mono k (show i + 1 ≤ n + 1 by omega)
  have := flat_get k (n + 1) 0 i j (Nat.zero_le i) (by omega) h1 h2
  obtain ⟨j, rfl⟩ : ∃ j', j = j' + 1 := ⟨j - 1, by omega⟩
  rw [pieces, List.range_eq_range', List.getElem?_cons_succ, List.getElem?_append_left (by omega)]
  exact this

theorem pieces_zero (k : Nat → Nat) (n : Nat) : (pieces k n)[0]? = some none := rfl

theorem pieces_last (k : Nat → Nat) (n : Nat) : (pieces k n)[firstPos k (n + 1)]? = some none := by
  have hl := flat_length0 k n
  have h0 := firstPos_pos k (n + 1)
  obtain ⟨j, hj⟩ : ∃ j', firstPos k (n + 1) = j' + 1 := ⟨firstPos k (n + 1) - 1, by omega⟩
  rw [hj] at hl ⊢
  rw [pieces, List.range_eq_range', List.getElem?_cons_succ, List.getElem?_append_right (by omega)]
  rw [show j - _ = 0 by omega]; rfl

/-- Every position is [CLS], [SEP], or in a word. -/
theorem pieces_cases {k : Nat → Nat} {n j : Nat} (hj : j < (pieces k n).length) :
    j = 0 ∨ j = firstPos k (n + 1) ∨ ∃ i ≤ n, firstPos k i ≤ j ∧ j < firstPos k (i + 1) := by
  rw [pieces_length] at hj
  rcases Nat.eq_zero_or_pos j with h | h
  · exact .inl h
  right
  rcases Nat.lt_or_ge j (firstPos k (n + 1)) with h2 | h2
  · right
    clear hj
    induction n with
    | zero => exact ⟨0, le_refl _, by simp [firstPos]; omega, h2⟩
    | succ n ih =>
      rcases Nat.lt_or_ge j (firstPos k (n + 1)) with h3 | h3
      · obtain ⟨i, h4, h5⟩ := ih h3
        exact ⟨i, by omega, h5⟩
      · exact ⟨n + 1, le_refl _, h3, h2⟩
  · left; omega

/-! ## The loops -/

theorem collect_map {β γ : Type} (f : β → γ) (keep : Nat → Bool) : ∀ (cur : Option Nat) (ws : List (Option Nat)) (xs : List β), collect keep cur ws (xs.map f) = (collect keep cur ws xs).map f
  | _, [], xs => by cases xs <;> simp [collect]
  | _, w :: ws, [] => by cases w <;> simp [collect]
  | cur, none :: ws, x :: xs => by simp only [List.map_cons, collect]; exact collect_map f keep _ ws xs
  | cur, some w :: ws, x :: xs => by
    simp only [List.map_cons, collect]
    split
    · rw [List.map_cons, collect_map f keep _ ws xs]
    · exact collect_map f keep _ ws xs

theorem collect_skip {keep : Nat → Bool} {cur : Option Nat} {w : Nat} (h : ¬ (keep w = true ∧ cur ≠ some w)) (ws : List (Option Nat)) (r : Nat) : ∀ (m s : Nat),
    collect keep cur (List.replicate m (some w) ++ ws) (List.range' s (m + r)) = collect keep cur ws (List.range' (s + m) r)
  | 0, s => by simp
  | m + 1, s => by
    rw [List.replicate_succ, List.cons_append, show m + 1 + r = (m + r) + 1 by omega, List.range'_succ, collect, if_neg h, collect_skip h ws r m (s + 1), show s + 1 + m = s + (m + 1) by omega]

theorem collect_flat (k : Nat → Nat) (keep : Nat → Bool) : ∀ (m a : Nat) (cur : Option Nat), (∀ c, cur = some c → c < a) →
    collect keep cur ((List.range' a m).flatMap (fun i => List.replicate (k i) (some i)) ++ [none])
      (List.range' (firstPos k a) (((List.range' a m).flatMap (fun i => List.replicate (k i) (some i))).length + 1)) = ((List.range' a m).filter (fun i => decide (0 < k i) && keep i)).map (firstPos k)
  | 0, a, cur, _ => by simp [collect]
  | m + 1, a, cur, hc => by
    have hcur : cur ≠ some a := fun e => by have := hc a e; omega
    rw [List.range'_succ, List.flatMap_cons, List.append_assoc, List.length_append, List.length_replicate, Nat.add_assoc]
    cases hk : k a with
    | zero =>
      rw [List.replicate_zero, List.nil_append, Nat.zero_add, show firstPos k a = firstPos k (a + 1) by simp [firstPos, hk],
        collect_flat k keep m (a + 1) cur (fun c e => by have := hc c e; omega), List.filter_cons, if_neg (by simp [hk])]
    | succ q =>
      have e : firstPos k (a + 1) = firstPos k a + 1 + q := by simp [firstPos, hk]; omega
      by_cases hkeep : keep a = true
      · rw [List.replicate_succ, List.cons_append, show q + 1 + (((List.range' (a + 1) m).flatMap (fun i => List.replicate (k i) (some i))).length + 1) =
          (q + (((List.range' (a + 1) m).flatMap (fun i => List.replicate (k i) (some i))).length + 1)) + 1 by omega, List.range'_succ, collect, if_pos ⟨hkeep, hcur⟩,
          collect_skip (by simp), ← e, collect_flat k keep m (a + 1) (some a) (fun c e => by cases e; omega), List.filter_cons, if_pos (by simp [hk, hkeep]), List.map_cons]
      · rw [collect_skip (by simp [hkeep]), show firstPos k a + (q + 1) = firstPos k (a + 1) by omega, collect_flat k keep m (a + 1) cur (fun c e => by have := hc c e; omega), List.filter_cons,
          if_neg (by simp [hkeep])]

theorem map_getD_range {β : Type} (xs : List β) (d : β) : (List.range' 0 xs.length).map (fun j => xs.getD j d) = xs := by
  rw [← List.range_eq_range']
  apply List.ext_getElem?
  intro j
  rw [List.getElem?_map]
  by_cases h : j < xs.length
  · rw [List.getElem?_range h, Option.map_some, List.getElem?_eq_getElem h, List.getD_eq_getElem?_getD, List.getElem?_eq_getElem h]; rfl
  · rw [List.getElem?_eq_none (by simp; omega), List.getElem?_eq_none (by omega)]; rfl

/-- What is collected: the entries at the first positions of the words that are kept. -/
theorem collect_pieces {β : Type} (d : β) (k : Nat → Nat) (keep : Nat → Bool) (n : Nat) (xs : List β) (hl : xs.length = (pieces k n).length) :
    collect keep none (pieces k n) xs = ((List.range (n + 1)).filter (fun i => decide (0 < k i) && keep i)).map (fun i => xs.getD (firstPos k i) d) := by
  have := collect_flat k keep (n + 1) 0 none (by simp)
  have e2 : (pieces k n).length = (((List.range' 0 (n + 1)).flatMap (fun i => List.replicate (k i) (some i))).length + 1) + 1 := by simp [pieces, List.range_eq_range']
  conv_lhs => rw [← map_getD_range xs d, collect_map, hl, e2, List.range'_succ, pieces, collect, List.range_eq_range']
  simp only [firstPos] at this
  rw [Nat.zero_add, this, List.map_map, List.range_eq_range']; rfl

/-! ## The specification -/

/-- There is a row of scores for every position, with a column for "[ROOT]" and every one of the `n` words (there may be more). -/
structure Scores (k : Nat → Nat) (n : Nat) (typ raw : List (List ℚ)) : Prop where
  types : typ.length = (pieces k n).length
  parents : raw.length = (pieces k n).length
  typeCols : ∀ r ∈ typ, r ≠ []
  parentCols : ∀ r ∈ raw, n + 1 ≤ r.length

/-- The row of the first piece of word `i` of the sentence. -/
def wordRow (k : Nat → Nat) (tab : List (List ℚ)) (i : Nat) : List ℚ := tab.getD (firstPos k (i + 1)) []

/-- The score for being the root at a position: column 0. -/
def rootScore (raw : List (List ℚ)) (j : Nat) : ℚ := (raw.getD j []).headD 0

/-! ## Lemmas -/

theorem rootMask_get : ∀ (cur : Option Nat) (ws : List (Option Nat)) (xs : List Logit) (j : Nat), ws.length = xs.length →
    (rootMask cur ws xs)[j]? = xs[j]?.map (fun x => if ws[j]? = some (some 0) ∨ (cur :: ws)[j]? = ws[j]? then ⊥ else x)
  | _, [], [], _, _ => by simp [rootMask]
  | _, [], _ :: _, _, h => by simp at h
  | _, _ :: _, [], _, h => by simp at h
  | cur, w :: ws, x :: xs, 0, _ => by simp [rootMask]
  | cur, w :: ws, x :: xs, j + 1, h => by
    simp only [rootMask, List.getElem?_cons_succ]
    exact rootMask_get w ws xs j (by simpa using h)

theorem keep_words {sent : List String} {k : Nat → Nat} (hr : "[ROOT]" ∉ sent) (hk : ∀ i ≤ sent.length, 0 < k i) :
    (List.range (sent.length + 1)).filter (fun i => decide (0 < k i) && decide (("[ROOT]" :: sent)[i]? ≠ some "[ROOT]")) = (List.range sent.length).map (· + 1) := by
  rw [List.range_succ_eq_map, List.filter_cons, if_neg (by simp), List.filter_eq_self.2]
  intro i hi
  obtain ⟨j, hj, rfl⟩ := List.mem_map.1 hi
  rw [List.mem_range] at hj
  simp only [Bool.and_eq_true, decide_eq_true_eq, List.getElem?_cons_succ, List.getElem?_eq_getElem hj]
  refine ⟨hk _ (by omega), fun e => hr ?_⟩
  rw [← Option.some.inj e]
  exact List.getElem_mem hj

theorem keep_pos {n : Nat} {k : Nat → Nat} (hk : ∀ i ≤ n, 0 < k i) :
    (List.range (n + 1)).filter (fun i => decide (0 < k i) && decide (i ≠ 0)) = (List.range n).map (· + 1) := by
  rw [List.range_succ_eq_map, List.filter_cons, if_neg (by simp), List.filter_eq_self.2]
  intro i hi
  obtain ⟨j, hj, rfl⟩ := List.mem_map.1 hi
  rw [List.mem_range] at hj
  simp only [Bool.and_eq_true, decide_eq_true_eq]
  exact ⟨hk _ (by omega), by omega⟩

section Core
open Classical

/-- The positions that can become the root: first pieces of words, and [SEP]. -/
def Cand (k : Nat → Nat) (n j : Nat) : Prop := j = firstPos k (n + 1) ∨ ∃ i < n, j = firstPos k (i + 1)

theorem root_row {k : Nat → Nat} {n : Nat} {typ raw : List (List ℚ)} (hk : ∀ i ≤ n, 0 < k i) (hs : Scores k n typ raw) :
    IsBest (raw.map (fun r => r.headD 0)) (Cand k n) (argmax (rootMask none (pieces k n) ((parentLogits (n + 1) (pieces k n) raw).map (fun r => r.headD ⊥)))) := by
  have hl := hs.parents
  have e : rootMask none (pieces k n) ((parentLogits (n + 1) (pieces k n) raw).map (fun r => r.headD ⊥)) =
      (raw.map (fun r => r.headD 0)).mapIdx (fun j x => if ¬ Cand k n j then ⊥ else fin x) := by
    apply List.ext_getElem?
    intro j
    rw [rootMask_get _ _ _ _ (by simp [parentLogits, hl]), List.getElem?_mapIdx, List.getElem?_map, List.getElem?_map, parentLogits, List.getElem?_zipWith]
    rcases Nat.lt_or_ge j raw.length with hj | hj
    · rw [List.getElem?_eq_getElem hj, List.getElem?_eq_getElem (hl ▸ hj)]
      simp only [Option.map_some, Option.some.injEq]
      have hrow := hs.parentCols _ (List.getElem_mem hj)
      have hhead : (maskRow (n + 1) (pieces k n)[j] raw[j]).headD ⊥ = fin (raw[j].headD 0) := by
        cases er : raw[j] with
        | nil => rw [er] at hrow; simp at hrow
        | cons x r =>
          simp only [maskRow, List.mapIdx_cons, List.headD_cons]
          rw [if_neg]
          rintro (h | ⟨_, h1, h2⟩)
          · omega
          · exact h1 h2
      rw [hhead]
      have hw : (pieces k n)[j]? = some (pieces k n)[j] := List.getElem?_eq_getElem (hl ▸ hj)
      congr 1
      rw [eq_iff_iff]
      rcases pieces_cases (hl ▸ hj) with h0 | h0 | ⟨i, hi, h1, h2⟩
      · subst h0
        refine iff_of_true (.inr ?_) ?_
        · rw [← hw]; rfl
        · rintro (h | ⟨i, hi, h⟩)
          · have := firstPos_pos k (n + 1); omega
          · have := firstPos_pos k (i + 1); omega
      · have e1 : (pieces k n)[j] = none := by
          have := pieces_last k n
          rw [← h0, hw] at this
          exact Option.some.inj this
        refine iff_of_false ?_ (fun h => h (.inl h0))
        rw [e1]
        rintro (h | h)
        · simp at h
        · have e2 : (pieces k n)[j - 1]? = some (some n) := pieces_get (le_refl _) (by rw [h0]; have := firstPos_lt k (show n < n + 1 by omega) (hk n (le_refl _)); omega) (by have := firstPos_pos k (n + 1); omega)
          obtain ⟨j, rfl⟩ : ∃ j', j = j' + 1 := ⟨j - 1, by have := firstPos_pos k (n + 1); omega⟩
          rw [List.getElem?_cons_succ] at h
          rw [Nat.add_sub_cancel, h] at e2
          simp at e2
      · have e1 : (pieces k n)[j] = some i := by
          have := pieces_get hi h1 h2
          rw [hw] at this
          exact Option.some.inj this
        rw [e1]
        have hp := firstPos_pos k i
        rcases Nat.eq_zero_or_pos i with hi0 | hi0
        · subst hi0
          refine iff_of_true (.inl rfl) ?_
          rintro (h | ⟨i, hi, h⟩)
          · have := firstPos_mono k (show 0 + 1 ≤ n + 1 by omega); omega
          · have := firstPos_mono k (show 0 + 1 ≤ i + 1 by omega); omega
        · rcases Nat.lt_or_ge (firstPos k i) j with h3 | h3
          · refine iff_of_true (.inr ?_) ?_
            · obtain ⟨j, rfl⟩ : ∃ j', j = j' + 1 := ⟨j - 1, by omega⟩
              rw [List.getElem?_cons_succ, pieces_get hi (by omega) (by omega)]
            · rintro (h | ⟨i', hi', h⟩)
              · have := firstPos_mono k (show i + 1 ≤ n + 1 by omega); omega
              · rcases Nat.lt_trichotomy (i' + 1) i with h4 | h4 | h4
                · have := firstPos_mono k h4.le; omega
                · rw [h4] at h; omega
                · have := firstPos_mono k (show i + 1 ≤ i' + 1 by omega); omega
          · have h4 : j = firstPos k i := by omega
            refine iff_of_false ?_ (fun h => h (.inr ⟨i - 1, by omega, by rw [h4]; congr 1; omega⟩))
            rintro (h | h)
            · simp at h; omega
            · have e2 : (pieces k n)[j - 1]? = some (some (i - 1)) := by
                have h5 := firstPos_lt k (show i - 1 < i by omega) (hk (i - 1) (by omega))
                exact pieces_get (by omega) (by omega) (by rw [show i - 1 + 1 = i by omega]; omega)
              obtain ⟨j, rfl⟩ : ∃ j', j = j' + 1 := ⟨j - 1, by omega⟩
              rw [List.getElem?_cons_succ] at h
              rw [Nat.add_sub_cancel, h] at e2
              simp at e2; omega
    · rw [List.getElem?_eq_none hj, List.getElem?_eq_none (by omega)]; rfl
  rw [e]
  refine (argmax_mask (P := fun j => ¬ Cand k n j) (c := firstPos k (n + 1)) (fun h => h (.inl rfl)) ?_).congr (fun d _ => not_not)
  rw [List.length_map, hl, pieces_length]; omega

theorem word_row {k : Nat → Nat} {n : Nat} {typ raw : List (List ℚ)} (hk : ∀ i ≤ n, 0 < k i) (hs : Scores k n typ raw) {i : Nat} (hi : i < n) :
    (parentLogits (n + 1) (pieces k n) raw)[firstPos k (i + 1)]? = some (maskRow (n + 1) (some (i + 1)) (wordRow k raw i)) ∧ n + 1 ≤ (wordRow k raw i).length := by
  have h1 := firstPos_lt k (Nat.lt_succ_self (i + 1)) (hk (i + 1) (by omega))
  have hp := pieces_get (k := k) (n := n) (i := i + 1) (by omega) (le_refl _) h1
  have hl : firstPos k (i + 1) < raw.length := by rw [hs.parents]; exact (List.getElem?_eq_some_iff.1 hp).1
  have e : wordRow k raw i = raw[firstPos k (i + 1)] := by rw [wordRow, List.getD_eq_getElem?_getD, List.getElem?_eq_getElem hl]; rfl
  rw [parentLogits, List.getElem?_zipWith, hp, List.getElem?_eq_getElem hl, e]
  exact ⟨rfl, hs.parentCols _ (List.getElem_mem hl)⟩

theorem best_any {n i : Nat} {row : List ℚ} (hl : n + 1 ≤ row.length) : IsBest row (fun c => c ≤ n ∧ c ≠ i + 1) (argmax (maskRow (n + 1) (some (i + 1)) row)) := by
  refine (argmax_mask (P := fun c => n + 1 ≤ c ∨ (some (i + 1) ≠ none ∧ some (i + 1) ≠ some 0 ∧ some (i + 1) = some c)) (c := 0) (by simp) (by omega)).congr ?_
  intro d _
  simp; omega

theorem best_other {n i : Nat} {row : List ℚ} (hl : n + 1 ≤ row.length) (hn : 2 ≤ n) (hi : i < n) :
    IsBest row (fun c => 1 ≤ c ∧ c ≤ n ∧ c ≠ i + 1) (argmax ((maskRow (n + 1) (some (i + 1)) row).set 0 ⊥)) := by
  have e : (maskRow (n + 1) (some (i + 1)) row).set 0 ⊥ = row.mapIdx (fun c x => if (n + 1 ≤ c ∨ c = i + 1) ∨ c = 0 then ⊥ else fin x) := by
    apply List.ext_getElem?
    intro c
    rw [List.getElem?_set, maskRow, List.getElem?_mapIdx, List.getElem?_mapIdx]
    cases c with
    | zero => rw [if_pos rfl, if_pos (by simp; omega), List.getElem?_eq_getElem (by omega)]; simp
    | succ c =>
      rw [if_neg (by omega)]
      congr 1; funext x
      congr 1
      rw [eq_iff_iff]
      simp; omega
  rw [e]
  refine (argmax_mask (P := fun c => (n + 1 ≤ c ∨ c = i + 1) ∨ c = 0) (c := if i = 0 then 2 else 1) (by split <;> omega) (by split <;> omega)).congr ?_
  intro d _
  omega

theorem best_root {row : List Logit} (hl : row ≠ []) : argmax (row.set 0 inf) = 0 := by
  refine argmax_eq (x := inf) ?_ (fun d y _ => ⟨le_inf, by omega⟩)
  cases row with
  | nil => exact absurd rfl hl
  | cons x r => rfl

/-- The result: `b` are the best columns, `root` is the position that is forced to be the root, `f` are the columns then. -/
theorem predict_eq (id2type : Nat → List Char) {sent : List String} {k : Nat → Nat} {typ raw : List (List ℚ)} (hr : "[ROOT]" ∉ sent) (hk : ∀ i ≤ sent.length, 0 < k i)
    (hs : Scores k sent.length typ raw) : ∃ (b f : Nat → Nat) (root : Nat),
      predict id2type sent (pieces k sent.length) typ raw = .ok ((List.range sent.length).map (fun i => [id2type (argmax ((wordRow k typ i).map fin))]),
        if (toParents ((List.range sent.length).map b)).count [-1] = 1 then toParents ((List.range sent.length).map b) else toParents ((List.range sent.length).map f)) ∧
      (∀ i < sent.length, IsBest (wordRow k raw i) (fun c => c ≤ sent.length ∧ c ≠ i + 1) (b i)) ∧
      IsBest (raw.map (fun r => r.headD 0)) (Cand k sent.length) root ∧
      (∀ i < sent.length, firstPos k (i + 1) = root → f i = 0) ∧
      (2 ≤ sent.length → ∀ i < sent.length, firstPos k (i + 1) ≠ root → IsBest (wordRow k raw i) (fun c => 1 ≤ c ∧ c ≤ sent.length ∧ c ≠ i + 1) (f i)) := by
  generalize hn : sent.length = n at hk hs ⊢
  have hroot := root_row hk hs
  generalize hroot' : argmax (rootMask none (pieces k n) ((parentLogits (n + 1) (pieces k n) raw).map (fun r => r.headD ⊥))) = root at hroot
  have hpl : (parentLogits (n + 1) (pieces k n) raw).length = (pieces k n).length := by simp [parentLogits, hs.parents]
  refine ⟨fun i => argmax (maskRow (n + 1) (some (i + 1)) (wordRow k raw i)),
    fun i => argmax ((maskRow (n + 1) (some (i + 1)) (wordRow k raw i)).set 0 (if firstPos k (i + 1) = root then inf else ⊥)), root, ?_, ?_, hroot, ?_, ?_⟩
  · have h1 : collect (fun w => decide (("[ROOT]" :: sent)[w]? ≠ some "[ROOT]")) none (pieces k n) ((parentLogits (n + 1) (pieces k n) raw).map argmax) =
        (List.range n).map (fun i => argmax (maskRow (n + 1) (some (i + 1)) (wordRow k raw i))) := by
      subst hn
      rw [collect_pieces 0 k _ _ _ (by simpa using hpl), keep_words hr hk, List.map_map]
      apply List.map_congr_left
      intro i hi
      rw [Function.comp_apply, List.getD_eq_getElem?_getD, List.getElem?_map, (word_row hk hs (List.mem_range.1 hi)).1]; rfl
    have h2 : collect (fun w => decide (("[ROOT]" :: sent)[w]? ≠ some "[ROOT]")) none (pieces k n) (typ.map (fun r => argmax (r.map fin))) =
        (List.range n).map (fun i => argmax ((wordRow k typ i).map fin)) := by
      subst hn
      rw [collect_pieces 0 k _ _ _ (by simpa using hs.types), keep_words hr hk, List.map_map]
      apply List.map_congr_left
      intro i hi
      have hlt : firstPos k (i + 1) < typ.length := by
        rw [hs.types, pieces_length]
        have := firstPos_mono k (show i + 1 ≤ sent.length + 1 by have := List.mem_range.1 hi; omega)
        omega
      rw [Function.comp_apply, List.getD_eq_getElem?_getD, List.getElem?_map, wordRow, List.getD_eq_getElem?_getD, List.getElem?_eq_getElem hlt]; rfl
    have h3 : forcedRoot (pieces k n) (parentLogits (n + 1) (pieces k n) raw) =
        (List.range n).map (fun i => argmax ((maskRow (n + 1) (some (i + 1)) (wordRow k raw i)).set 0 (if firstPos k (i + 1) = root then inf else ⊥))) := by
      unfold forcedRoot
      simp only [hroot']
      rw [collect_pieces 0 k _ _ _ (by simpa using hpl), keep_pos hk, List.map_map]
      apply List.map_congr_left
      intro i hi
      rw [Function.comp_apply, List.getD_eq_getElem?_getD, List.getElem?_map, List.getElem?_mapIdx, (word_row hk hs (List.mem_range.1 hi)).1]
      simp only [Option.map_some, Option.getD_some]
    unfold predict
    simp only [List.length_cons, hn]
    rw [h1, h2, h3]
    simp only [List.length_map, List.length_range, and_self, if_true, List.map_map]
    congr 2
    have : ∀ ps : List (List Int), (rootNotAssigned ps || multipleRoots ps) = !decide (ps.count [-1] = 1) := by
      intro ps
      rw [rootNotAssigned, multipleRoots]
      by_cases hm : [-1] ∈ ps
      · have := List.count_pos_iff.2 hm
        simp [hm]
        by_cases hc : ps.count [-1] = 1
        · simp [hc]
        · simp [hc]; omega
      · have := List.count_eq_zero.2 hm
        simp [hm, this]
    rw [this]
    by_cases hc : (toParents ((List.range n).map (fun i => argmax (maskRow (n + 1) (some (i + 1)) (wordRow k raw i))))).count [-1] = 1 <;> simp [hc]
  · intro i hi
    exact best_any (word_row hk hs hi).2
  · intro i hi e
    simp only [e, if_true]
    refine best_root ?_
    intro h
    have h1 := congrArg List.length h
    have h2 := (word_row hk hs hi).2
    rw [maskRow, List.length_mapIdx, List.length_nil] at h1
    omega
  · intro h2 i hi e
    simp only [if_neg e]
    exact best_other (word_row hk hs hi).2 h2 hi
end Core

/-! ## Counting roots -/

theorem countP_one {p : Nat → Bool} {n : Nat} : (List.range n).countP p = 1 ↔ ∃ r < n, ∀ i < n, p i = true ↔ i = r := by
  rw [List.countP_eq_length_filter]
  have hnd : ((List.range n).filter p).Nodup := List.nodup_range.filter _
  constructor
  · intro h
    obtain ⟨r, hr⟩ := List.length_eq_one_iff.1 h
    have hmem : ∀ i, (i < n ∧ p i = true) ↔ i = r := by
      intro i
      have : i ∈ (List.range n).filter p ↔ i = r := by rw [hr]; simp
      simpa using this
    exact ⟨r, ((hmem r).2 rfl).1, fun i hi => ⟨fun h => (hmem i).1 ⟨hi, h⟩, fun h => ((hmem i).2 h).2⟩⟩
  · rintro ⟨r, hr, h⟩
    have : ((List.range n).filter p).Perm [r] := by
      refine (List.perm_ext_iff_of_nodup hnd (List.nodup_singleton r)).2 ?_
      intro i
      simp only [List.mem_filter, List.mem_range, List.mem_singleton]
      exact ⟨fun ⟨h1, h2⟩ => (h i h1).1 h2, fun e => ⟨e ▸ hr, (h i (e ▸ hr)).2 e⟩⟩
    exact this.length_eq

theorem count_roots {b : Nat → Nat} {n : Nat} : (toParents ((List.range n).map b)).count [-1] = 1 ↔ ∃ r < n, ∀ i < n, b i = 0 ↔ i = r := by
  have : (toParents ((List.range n).map b)).count [-1] = (List.range n).countP (fun i => decide (b i = 0)) := by
    rw [toParents, List.map_map, List.count, List.countP_map]
    apply List.countP_congr
    intro i _
    simp
  rw [this, countP_one]
  simp only [decide_eq_true_eq]

theorem parents_get {b : Nat → Nat} {n i : Nat} (hi : i < n) : (toParents ((List.range n).map b))[i]? = some [(b i : Int) - 1] := by
  rw [toParents, List.map_map, List.getElem?_map, List.getElem?_range hi]; rfl

theorem parents_length {b : Nat → Nat} {n : Nat} : (toParents ((List.range n).map b)).length = n := by simp [toParents]

theorem head_get {raw : List (List ℚ)} {j : Nat} (hj : j < raw.length) : (raw.map (fun r => r.headD 0))[j]? = some (rootScore raw j) := by
  rw [List.getElem?_map, List.getElem?_eq_getElem hj, rootScore, List.getD_eq_getElem?_getD, List.getElem?_eq_getElem hj]; rfl

theorem pos_lt {k : Nat → Nat} {n i : Nat} {typ raw : List (List ℚ)} (hs : Scores k n typ raw) (hi : i ≤ n + 1) : firstPos k i < raw.length := by
  rw [hs.parents, pieces_length]
  have := firstPos_mono k hi
  omega

theorem pos_inj {k : Nat → Nat} {n i j : Nat} (hk : ∀ i ≤ n, 0 < k i) (hi : i ≤ n) (hj : j ≤ n + 1) (e : firstPos k i = firstPos k j) : i = j := by
  rcases Nat.lt_trichotomy i j with h | h | h
  · have := firstPos_lt k h (hk i hi); omega
  · exact h
  · have := firstPos_lt k h (hk j (by omega)); omega

/-! ## The theorems -/

/-- **C104 (types and parents).** Let no word of the sentence be "[ROOT]", and let every word have at least one piece. Then there is a prediction: one type for every word, the best one in the row of its first piece, and one
parent for every word, which is -1 (the root) or the number of another word. -/
theorem C104_predict (id2type : Nat → List Char) (sent : List String) (k : Nat → Nat) (typ raw : List (List ℚ)) (hr : "[ROOT]" ∉ sent) (hk : ∀ i ≤ sent.length, 0 < k i)
    (hs : Scores k sent.length typ raw) : ∃ types parents, predict id2type sent (pieces k sent.length) typ raw = .ok (types, parents) ∧ types.length = sent.length ∧ parents.length = sent.length ∧
      ∀ i < sent.length, (∃ t, IsBest (wordRow k typ i) (fun _ => True) t ∧ types[i]? = some [id2type t]) ∧
        ∃ p : Int, parents[i]? = some [p] ∧ -1 ≤ p ∧ p < sent.length ∧ p ≠ i := by
  obtain ⟨b, f, root, h, hb, hroot, hf0, hf⟩ := predict_eq id2type hr hk hs
  refine ⟨_, _, h, by simp, by split <;> exact parents_length, ?_⟩
  intro i hi
  constructor
  · refine ⟨argmax ((wordRow k typ i).map fin), ?_, by rw [List.getElem?_map, List.getElem?_range hi]; rfl⟩
    have hlt : firstPos k (i + 1) < typ.length := by
      rw [hs.types, pieces_length]
      have := firstPos_mono k (show i + 1 ≤ sent.length + 1 by omega)
      omega
    have hne : wordRow k typ i ≠ [] := by
      rw [wordRow, List.getD_eq_getElem?_getD, List.getElem?_eq_getElem hlt]
      exact hs.typeCols _ (List.getElem_mem hlt)
    have e : (wordRow k typ i).map fin = (wordRow k typ i).mapIdx (fun c x => if False then ⊥ else fin x) := by
      apply List.ext_getElem?; intro c; simp
    rw [e]
    exact (argmax_mask (P := fun _ => False) (c := 0) id (List.length_pos_of_ne_nil hne)).congr (fun d _ => by simp)
  · split
    · exact ⟨_, parents_get hi, by omega, by have := (hb i hi).1; omega, by have := (hb i hi).1; omega⟩
    · rename_i hc
      refine ⟨_, parents_get hi, by omega, ?_⟩
      by_cases e : firstPos k (i + 1) = root
      · rw [hf0 i hi e]; constructor <;> omega
      · have h2 : 2 ≤ sent.length := by
          by_contra h2
          refine hc (count_roots.2 ⟨i, hi, ?_⟩)
          intro j hj
          have := (hb j hj).1
          omega
        have := (hf h2 i hi e).1
        omega

/-- **C104 (the best parents).** Let `b i` be the best parent column of word `i` (0 for the root, j + 1 for word j). If there is exactly one word for which this is the root, every word gets its best parent. -/
theorem C104_best (id2type : Nat → List Char) (sent : List String) (k : Nat → Nat) (typ raw : List (List ℚ)) (hr : "[ROOT]" ∉ sent) (hk : ∀ i ≤ sent.length, 0 < k i)
    (hs : Scores k sent.length typ raw) (b : Nat → Nat) (hb : ∀ i < sent.length, IsBest (wordRow k raw i) (fun c => c ≤ sent.length ∧ c ≠ i + 1) (b i))
    (h1 : ∃ r < sent.length, ∀ i < sent.length, b i = 0 ↔ i = r) :
    ∃ types, predict id2type sent (pieces k sent.length) typ raw = .ok (types, (List.range sent.length).map (fun i => [(b i : Int) - 1])) := by
  obtain ⟨b', f, root, h, hb', -⟩ := predict_eq id2type hr hk hs
  have e : (List.range sent.length).map b' = (List.range sent.length).map b := List.map_congr_left (fun i hi => (hb' i (List.mem_range.1 hi)).unique (hb i (List.mem_range.1 hi)))
  rw [e, if_pos (count_roots.2 h1)] at h
  exact ⟨_, h.trans (by rw [toParents, List.map_map]; rfl)⟩

/-- **C104 (the forced root).** If none or several words have the root as their best parent, the first word `r` with the highest score for the root becomes the root, provided that this score is not exceeded at [SEP]. All other
words get the best parent that is not the root. -/
theorem C104_forced (id2type : Nat → List Char) (sent : List String) (k : Nat → Nat) (typ raw : List (List ℚ)) (hr : "[ROOT]" ∉ sent) (hk : ∀ i ≤ sent.length, 0 < k i)
    (hs : Scores k sent.length typ raw) (b : Nat → Nat) (hb : ∀ i < sent.length, IsBest (wordRow k raw i) (fun c => c ≤ sent.length ∧ c ≠ i + 1) (b i))
    (h1 : ¬ ∃ r < sent.length, ∀ i < sent.length, b i = 0 ↔ i = r) (r : Nat) (hrl : r < sent.length)
    (hmax : ∀ i < sent.length, rootScore raw (firstPos k (i + 1)) ≤ rootScore raw (firstPos k (r + 1)) ∧ (i < r → rootScore raw (firstPos k (i + 1)) < rootScore raw (firstPos k (r + 1))))
    (hsep : rootScore raw (firstPos k (sent.length + 1)) ≤ rootScore raw (firstPos k (r + 1))) :
    ∃ types parents, predict id2type sent (pieces k sent.length) typ raw = .ok (types, parents) ∧ parents[r]? = some [-1] ∧
      ∀ i < sent.length, i ≠ r → ∃ c, IsBest (wordRow k raw i) (fun c => 1 ≤ c ∧ c ≤ sent.length ∧ c ≠ i + 1) c ∧ parents[i]? = some [(c : Int) - 1] := by
  obtain ⟨b', f, root, h, hb', hroot, hf0, hf⟩ := predict_eq id2type hr hk hs
  have e : (List.range sent.length).map b' = (List.range sent.length).map b := List.map_congr_left (fun i hi => (hb' i (List.mem_range.1 hi)).unique (hb i (List.mem_range.1 hi)))
  rw [e, if_neg (fun h => h1 (count_roots.1 h))] at h
  have hroot' : root = firstPos k (r + 1) := by
    refine hroot.unique ⟨.inr ⟨r, hrl, rfl⟩, _, head_get (pos_lt hs (by omega)), ?_⟩
    intro d y hd hy
    rcases hd with rfl | ⟨i, hi, rfl⟩
    · rw [head_get (pos_lt hs (le_refl _))] at hy
      cases hy
      exact ⟨hsep, fun h => by have := firstPos_mono k (show r + 1 ≤ sent.length + 1 by omega); omega⟩
    · rw [head_get (pos_lt hs (by omega))] at hy
      cases hy
      refine ⟨(hmax i hi).1, fun h => (hmax i hi).2 ?_⟩
      by_contra h3
      have := firstPos_mono k (show r + 1 ≤ i + 1 by omega)
      omega
  have h2 : 2 ≤ sent.length := by
    by_contra h2
    refine h1 ⟨r, hrl, ?_⟩
    intro j hj
    have := (hb j hj).1
    omega
  refine ⟨_, _, h, ?_, ?_⟩
  · rw [parents_get hrl, hf0 r hrl hroot'.symm]; rfl
  · intro i hi hir
    refine ⟨f i, hf h2 i hi ?_, parents_get hi⟩
    rw [hroot']
    intro e
    have := pos_inj hk (show i + 1 ≤ sent.length by omega) (by omega) e
    omega

/-- **C104 (number of roots).** There is exactly one root if exactly one word has the root as its best parent, or if the score for the root at [SEP] does not exceed the scores for the root of all words. Otherwise there is no root. -/
theorem C104_one_root (id2type : Nat → List Char) (sent : List String) (k : Nat → Nat) (typ raw : List (List ℚ)) (hr : "[ROOT]" ∉ sent) (hk : ∀ i ≤ sent.length, 0 < k i)
    (hs : Scores k sent.length typ raw) (b : Nat → Nat) (hb : ∀ i < sent.length, IsBest (wordRow k raw i) (fun c => c ≤ sent.length ∧ c ≠ i + 1) (b i))
    (types : List (List (List Char))) (parents : List (List Int)) (h : predict id2type sent (pieces k sent.length) typ raw = .ok (types, parents)) :
    (parents.count [-1] = 1 ↔ (∃ r < sent.length, ∀ i < sent.length, b i = 0 ↔ i = r) ∨ ∃ i < sent.length, rootScore raw (firstPos k (sent.length + 1)) ≤ rootScore raw (firstPos k (i + 1))) ∧
    (parents.count [-1] ≠ 1 → [-1] ∉ parents) := by
  obtain ⟨b', f, root, h', hb', hroot, hf0, hf⟩ := predict_eq id2type hr hk hs
  have e : (List.range sent.length).map b' = (List.range sent.length).map b := List.map_congr_left (fun i hi => (hb' i (List.mem_range.1 hi)).unique (hb i (List.mem_range.1 hi)))
  rw [e, h] at h'
  have h' := congrArg Prod.snd (Except.ok.inj h')
  simp only at h'
  by_cases h1 : ∃ r < sent.length, ∀ i < sent.length, b i = 0 ↔ i = r
  · rw [if_pos (count_roots.2 h1)] at h'
    rw [h']
    exact ⟨iff_of_true (count_roots.2 h1) (.inl h1), fun h => absurd (count_roots.2 h1) h⟩
  · rw [if_neg (fun h => h1 (count_roots.1 h))] at h'
    rw [h', count_roots, or_iff_right h1]
    have hne : ∀ i < sent.length, firstPos k (i + 1) ≠ root → f i ≠ 0 := by
      intro i hi e
      have h2 : 2 ≤ sent.length := by
        by_contra h2
        refine h1 ⟨i, hi, ?_⟩
        intro j hj
        have := (hb j hj).1
        omega
      have := (hf h2 i hi e).1
      omega
    obtain ⟨hc, x, hx, hall⟩ := hroot
    have hall' : ∀ i, i ≤ sent.length + 1 → Cand k sent.length (firstPos k i) → rootScore raw (firstPos k i) ≤ x ∧ (firstPos k i < root → rootScore raw (firstPos k i) < x) :=
      fun i hi hd => hall _ _ hd (head_get (pos_lt hs hi))
    rcases hc with hc | ⟨r, hrl, hc⟩
    · subst hc
      rw [head_get (pos_lt hs (le_refl _))] at hx
      cases hx
      have hno : ∀ i < sent.length, f i ≠ 0 := by
        intro i hi
        refine hne i hi ?_
        have := firstPos_lt k (show i + 1 < sent.length + 1 by omega) (hk (i + 1) (by omega))
        omega
      refine ⟨iff_of_false ?_ ?_, ?_⟩
      · rintro ⟨r, hrl, h⟩
        exact hno r hrl ((h r hrl).2 rfl)
      · rintro ⟨i, hi, h⟩
        have := (hall' (i + 1) (by omega) (.inr ⟨i, hi, rfl⟩)).2 (firstPos_lt k (show i + 1 < sent.length + 1 by omega) (hk (i + 1) (by omega)))
        exact absurd h (not_le.2 this)
      · intro _ hm
        obtain ⟨i, hi⟩ := List.getElem?_of_mem hm
        have hil : i < sent.length := by
          have := (List.getElem?_eq_some_iff.1 hi).1
          rwa [parents_length] at this
        rw [parents_get hil] at hi
        simp at hi
        exact hno i hil (by omega)
    · subst hc
      rw [head_get (pos_lt hs (by omega))] at hx
      cases hx
      have h3 : ∃ r < sent.length, ∀ i < sent.length, f i = 0 ↔ i = r := by
        refine ⟨r, hrl, fun i hi => ⟨fun h => ?_, fun h => hf0 i hi (by rw [h])⟩⟩
        by_contra hir
        exact hne i hi (fun e => hir (by have := pos_inj hk (show i + 1 ≤ sent.length by omega) (by omega) e; omega)) h
      refine ⟨iff_of_true h3 ⟨r, hrl, (hall' (sent.length + 1) (le_refl _) (.inl rfl)).1⟩, fun h => absurd (count_roots.2 h3) h⟩

/-- **C104 (failures).** If a word of the sentence is "[ROOT]", or a word has no piece (since the tokeniser has truncated the sentence, or has removed the word), `AssertionError` is raised. -/
theorem C104_fails (id2type : Nat → List Char) (sent : List String) (k : Nat → Nat) (typ raw : List (List ℚ)) (hs : Scores k sent.length typ raw)
    (h : "[ROOT]" ∈ sent ∨ ∃ i < sent.length, k (i + 1) = 0) : predict id2type sent (pieces k sent.length) typ raw = .error .assertionError := by
  unfold predict
  simp only
  rw [if_neg]
  rintro ⟨-, h2⟩
  rw [collect_pieces 0 k _ _ _ (by simp [parentLogits, hs.parents]), List.length_map, List.range_succ_eq_map, List.filter_cons, if_neg (by simp)] at h2
  have h3 : ((List.range sent.length).map Nat.succ).filter (fun i => decide (0 < k i) && decide (("[ROOT]" :: sent)[i]? ≠ some "[ROOT]")) = (List.range sent.length).map Nat.succ :=
    List.filter_sublist.eq_of_length (by rw [h2]; simp)
  rw [List.filter_eq_self] at h3
  rcases h with h | ⟨i, hi, h⟩
  · obtain ⟨i, hi⟩ := List.getElem?_of_mem h
    have := h3 (i + 1) (List.mem_map.2 ⟨i, List.mem_range.2 (List.getElem?_eq_some_iff.1 hi).1, rfl⟩)
    simp [hi] at this
  · have := h3 (i + 1) (List.mem_map.2 ⟨i, List.mem_range.2 hi, rfl⟩)
    simp [h] at this

theorem flatten_count {α : Type} (q : List Int → Bool) : ∀ (g : Nat → List Int → α) (l : List (List Int)), (l.mapIdx (fun c ps => if q ps = true then [g c ps] else [])).flatten.length = l.countP q
  | _, [] => rfl
  | g, ps :: l => by
    rw [List.mapIdx_cons, List.flatten_cons, List.length_append, flatten_count q (fun c => g (c + 1)) l, List.countP_cons]
    split <;> simp_all <;> omega

/-- **C104 (the tree).** If there is one root in the prediction and the parents of the words have no cycle, the words form one tree: `generate_tree` returns a single tree with every word of the sentence exactly once. -/
theorem C104_tree (id2type : Nat → List Char) (sent : List String) (k : Nat → Nat) (typ raw : List (List ℚ)) (hr : "[ROOT]" ∉ sent) (hk : ∀ i ≤ sent.length, 0 < k i)
    (hs : Scores k sent.length typ raw) (types : List (List (List Char))) (parents : List (List Int)) (h : predict id2type sent (pieces k sent.length) typ raw = .ok (types, parents))
    (h1 : parents.count [-1] = 1) (depth : Nat → Nat) (hd : ∀ i p : Nat, parents[i]? = some [(p : Int)] → depth p < depth i) (hdl : ∀ i < sent.length, depth i < sent.length) :
    ∃ t, PTree.generateTree sent types parents = .ok [t] ∧ t.inds.Perm (List.range sent.length) := by
  obtain ⟨types', parents', h', hl1, hl2, hall⟩ := C104_predict id2type sent k typ raw hr hk hs
  rw [h] at h'
  cases h'
  have hsingle : ∀ ps ∈ parents, ∃ p : Int, ps = [p] ∧ -1 ≤ p ∧ p < parents.length := by
    intro ps hps
    obtain ⟨i, hi⟩ := List.getElem?_of_mem hps
    obtain ⟨-, p, hp, h3, h4, -⟩ := hall i (by rw [← hl2]; exact (List.getElem?_eq_some_iff.1 hi).1)
    rw [hi] at hp
    exact ⟨p, Option.some.inj hp, h3, by omega⟩
  have htys : ∀ tys ∈ types, tys.length = 1 := by
    intro tys ht
    obtain ⟨i, hi⟩ := List.getElem?_of_mem ht
    obtain ⟨⟨t, -, ht⟩, -⟩ := hall i (by rw [← hl1]; exact (List.getElem?_eq_some_iff.1 hi).1)
    rw [hi] at ht
    cases ht; rfl
  obtain ⟨R, hR⟩ := PTree.C87_generate_succeeds sent types parents (by
      intro ps hps
      obtain ⟨p, rfl, h3, h4⟩ := hsingle ps hps
      exact ⟨by simp, by simpa using ⟨h3, h4⟩⟩) (by omega) (by omega)
    (by
      intro i tys ps ht hp
      obtain ⟨p, rfl, -⟩ := hsingle ps (List.mem_of_getElem? hp)
      rw [htys tys (List.mem_of_getElem? ht)]; simp) depth
    (by
      intro i ps p hp hm
      obtain ⟨q, rfl, -⟩ := hsingle ps (List.mem_of_getElem? hp)
      simp at hm; subst hm
      exact hd i p hp) (by rw [hl2]; exact hdl)
  have hperm := PTree.C87_generate_single sent types parents R hR (by intro ps hps; obtain ⟨p, rfl, -⟩ := hsingle ps hps; rfl) htys
  have hlen : R.length = 1 := by
    obtain ⟨H, e⟩ := PTree.generateTree_ok hR
    have hk : (PTree.kids parents (-1)).length = 1 := by
      rw [PTree.kids, flatten_count (fun ps => ps.contains (-1)) (fun c ps => (c, ps.length - 1 - ps.reverse.idxOf (-1))), ← h1, List.count]
      apply List.countP_congr
      intro ps hps
      obtain ⟨p, rfl, -⟩ := hsingle ps hps
      simp; omega
    obtain ⟨c, hc⟩ := List.length_eq_one_iff.1 hk
    have hmem : c ∈ PTree.kids parents (-1) := by rw [hc]; simp
    have hcl : c.1 < types.length := by
      rw [PTree.kids, List.mem_flatten] at hmem
      obtain ⟨l, hl, hcl⟩ := hmem
      obtain ⟨i, hi, rfl⟩ := List.mem_mapIdx.1 hl
      split at hcl
      · simp at hcl; subst hcl; simp; omega
      · simp at hcl
    rw [e, hc]
    simp only [List.flatMap_cons, List.flatMap_nil, List.append_nil, List.length_map, List.length_range]
    rw [List.getD_eq_getElem?_getD, List.getElem?_eq_getElem hcl]
    exact htys _ (List.getElem_mem hcl)
  obtain ⟨t, rfl⟩ := List.length_eq_one_iff.1 hlen
  exact ⟨t, hR, by simpa using hperm⟩

/-! ## Concrete cases -/

/-- Two words, the second one in two pieces: [CLS], [ROOT], "John", "run", "##s", [SEP]. -/
def exK : Nat → Nat := fun i => if i = 2 then 2 else 1
def exTyp : List (List ℚ) := [[0, 0], [0, 0], [2, 1], [0, 1], [0, 0], [0, 0]]
def exRaw : List (List ℚ) := [[0, 0, 0, 0], [0, 0, 0, 0], [0, 0, 3, 9], [5, 4, 9, 9], [7, 7, 7, 7], [1, 0, 0, 0]]
/-- Both words prefer the other one, and [SEP] has the highest score for the root. -/
def exSep : List (List ℚ) := [[0, 0, 0, 0], [0, 0, 0, 0], [0, 0, 3, 9], [3, 4, 9, 9], [7, 7, 7, 7], [4, 0, 0, 0]]

/-- The hypotheses of the theorems hold; word 1 has the root as its best parent, word 0 has word 1. -/
example : Scores exK 2 exTyp exRaw ∧ "[ROOT]" ∉ ["John", "runs"] ∧ (∀ i ≤ 2, 0 < exK i) ∧ predict (fun t => if t = 0 then ['n'] else ['s']) ["John", "runs"] (pieces exK 2) exTyp exRaw = .ok ([[['n']], [['s']]], [[1], [-1]]) := by
  refine ⟨⟨by decide +kernel, by decide +kernel, by decide +kernel, by decide +kernel⟩, by decide, ?_, by decide +kernel⟩
  intro i _; unfold exK; split <;> omega

/-- The root is forced when both words prefer another word: the one with the higher score for the root is taken. -/
example : Scores exK 2 exTyp [[0, 0, 0], [0, 0, 0], [0, 0, 3], [3, 4, 9], [7, 7, 7], [1, 0, 0]] ∧
    predict (fun t => if t = 0 then ['n'] else ['s']) ["John", "runs"] (pieces exK 2) exTyp [[0, 0, 0], [0, 0, 0], [0, 0, 3], [3, 4, 9], [7, 7, 7], [1, 0, 0]] = .ok ([[['n']], [['s']]], [[1], [-1]]) := by
  refine ⟨⟨by decide +kernel, by decide +kernel, by decide +kernel, by decide +kernel⟩, by decide +kernel⟩

/-- The hypotheses of C104_tree hold for this prediction. -/
example : ([[1], [-1]] : List (List Int)).count [-1] = 1 ∧ ∀ i p : Nat, ([[1], [-1]] : List (List Int))[i]? = some [(p : Int)] → (fun i => 1 - i) p < (fun i => 1 - i) i := by
  refine ⟨by decide, ?_⟩
  intro i p h
  match i with
  | 0 => simp at h; show 1 - p < 1 - 0; omega
  | 1 => simp at h
  | i + 2 => simp at h

/-- **C104, refuted in general.** [SEP] is not masked when the root is forced. It may have the highest score for the root; then no word is the root, and the two words are parents of each other. -/
theorem C104_refuted_sep : ∃ (sent : List String) (k : Nat → Nat) (typ raw : List (List ℚ)), "[ROOT]" ∉ sent ∧ (∀ i ≤ sent.length, 0 < k i) ∧ Scores k sent.length typ raw ∧
    ∃ types, predict (fun _ => ['n']) sent (pieces k sent.length) typ raw = .ok (types, [[1], [0]]) := by
  refine ⟨["John", "runs"], exK, exTyp, exSep, by decide, ?_, ⟨by decide +kernel, by decide +kernel, by decide +kernel, by decide +kernel⟩, [[['n']], [['n']]], by decide +kernel⟩
  intro i _; unfold exK; split <;> omega

/-- **C104, refuted: a single root does not exclude cycles.** The first word is the root, and the others are parents of each other; the three words are not one tree. -/
theorem C104_refuted_cycle : ∃ (sent : List String) (k : Nat → Nat) (typ raw : List (List ℚ)), "[ROOT]" ∉ sent ∧ (∀ i ≤ sent.length, 0 < k i) ∧ Scores k sent.length typ raw ∧
    ∃ types, predict (fun _ => ['n']) sent (pieces k sent.length) typ raw = .ok (types, [[-1], [2], [1]]) := by
  refine ⟨["a", "b", "c"], fun _ => 1, List.replicate 6 [0], [[0, 0, 0, 0], [0, 0, 0, 0], [1, 0, 0, 0], [0, 0, 0, 1], [0, 0, 1, 0], [0, 0, 0, 0]], by decide, ?_,
    ⟨by decide +kernel, by decide +kernel, by decide +kernel, by decide +kernel⟩, [[['n']], [['n']], [['n']]], by decide +kernel⟩
  intro i _; exact Nat.one_pos

end Oncilla
end Lambeq
