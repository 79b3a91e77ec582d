import Verif.Drawing.TextRows
import Mathlib.Data.List.GetD

namespace Lambeq
namespace TextPrint
set_option linter.unusedSimpArgs false

/-! ## Specification: what is drawn at each column -/

/-- The cup or swap drawn over column `x`. -/
def over (l : List Morph) (col : Nat → Nat) (x : Nat) : Option Morph := l.find? (fun m => decide (col m.start ≤ x) && decide (x ≤ col m.stop))

/-- Where the lines of a swap cross. -/
def mid (a b : Nat) : Nat := a + 1 + (b - a - 2) / 2

/-- The first line of a layer: a cup or swap from its left to its right column; a bar for every other wire. -/
def cell0 (c : Chars) (l : List Morph) (S : List Nat) (col : Nat → Nat) (x : Nat) : Char :=
  match over l col x with
  | some m => if x = col m.start then c.botL else if x = col m.stop then c.botR else if m.cup = false ∧ x = mid (col m.start) (col m.stop) then c.topR else c.line
  | none => if x ∈ S.map col then c.bar else ' '

/-- The second line of a layer: the lower half of the swaps; a bar for every wire that is not in a cup. -/
def cell1 (c : Chars) (l : List Morph) (S : List Nat) (col : Nat → Nat) (x : Nat) : Char :=
  match over l col x with
  | some m => if m.cup then ' ' else if x = col m.start then c.topL else if x = col m.stop then c.topR else if x = mid (col m.start) (col m.stop) then c.botL else c.line
  | none => if x ∈ S.map col then c.bar else ' '

/-! ## Proof -/

theorem getD_app (A B : List Char) (x : Nat) : (A ++ B).getD x ' ' = if x < A.length then A.getD x ' ' else B.getD (x - A.length) ' ' := by
  split_ifs with h
  · exact List.getD_append _ _ _ _ h
  · exact List.getD_append_right _ _ _ _ (by omega)

theorem getD_rep (n : Nat) (ch : Char) (x : Nat) : (List.replicate n ch).getD x ' ' = if x < n then ch else ' ' := by
  simp only [List.getD_eq_getElem?_getD, List.getElem?_replicate]
  split_ifs <;> rfl

theorem getD_one (ch : Char) (x : Nat) : [ch].getD x ' ' = if x = 0 then ch else ' ' := by
  cases x <;> simp

theorem getD_len {A : List Char} {x : Nat} (h : A.length ≤ x) : A.getD x ' ' = ' ' := List.getD_eq_default _ _ h

theorem ljust_length (s : List Char) (n : Nat) (c : Char) : (ljust s n c).length = max s.length n := by
  simp [ljust]; omega

theorem ljust_getD (s : List Char) (n : Nat) (x : Nat) : (ljust s n ' ').getD x ' ' = s.getD x ' ' := by
  unfold ljust
  rw [getD_app, getD_rep]
  split_ifs with h h2
  · rfl
  · rw [getD_len (by omega)]
  · rw [getD_len (by omega)]

theorem center_one {ch c : Char} {w : Nat} (h : 1 ≤ w) : center [ch] w c = List.replicate ((w - 1) / 2) c ++ [ch] ++ List.replicate (w - 1 - (w - 1) / 2) c := by
  unfold center
  simp only [List.length_cons, List.length_nil]
  rw [if_neg (by omega)]
  simp

theorem over_none {l : List Morph} {col : Nat → Nat} {x : Nat} (h : ∀ m ∈ l, x < col m.start ∨ col m.stop < x) : over l col x = none := by
  unfold over
  rw [List.find?_eq_none]
  intro m hm
  have := h m hm
  simp only [Bool.and_eq_true, decide_eq_true_eq, not_and]
  omega

theorem over_some {l : List Morph} {col : Nat → Nat} (hs : Sorted l) (hmono : ∀ m ∈ l, ∀ n ∈ l, m.stop < n.start → col m.stop < col n.start) {m : Morph} (hm : m ∈ l)
    {x : Nat} (h1 : col m.start ≤ x) (h2 : x ≤ col m.stop) : over l col x = some m := by
  unfold over
  induction l with
  | nil => simp at hm
  | cons n l ih =>
    obtain ⟨p1, p2⟩ := List.pairwise_cons.1 hs.1
    rcases List.mem_cons.1 hm with rfl | hm'
    · rw [List.find?_cons_of_pos (by simp [h1, h2])]
    · have := hmono n (by simp) m hm (p1 m hm')
      rw [List.find?_cons_of_neg (by simp; omega)]
      exact ih ⟨p2, fun k hk => hs.2 k (by simp [hk])⟩ (fun a ha b hb => hmono a (by simp [ha]) b (by simp [hb])) hm'

/-- Agreement with the specification to the left of `n`. -/
structure Upto (c : Chars) (l : List Morph) (S : List Nat) (col : Nat → Nat) (n : Nat) (r : List Char × List Char) : Prop where
  len0 : r.1.length ≤ n
  len1 : r.2.length ≤ n
  row0 : ∀ x, x < n → r.1.getD x ' ' = cell0 c l S col x
  row1 : ∀ x, x < n → r.2.getD x ' ' = cell1 c l S col x

variable {c : Chars} {l : List Morph} {S : List Nat} {col : Nat → Nat}

/-- Blanks up to the next wire. -/
theorem Upto.blank {n k : Nat} {r : List Char × List Char} (h : Upto c l S col n r) (hk : n ≤ k) (hl : ∀ m ∈ l, k ≤ col m.start ∨ col m.stop < n) (hS : ∀ i ∈ S, col i < n ∨ k ≤ col i) : Upto c l S col k r := by
  have ho : ∀ x, n ≤ x → x < k → over l col x = none := fun x h1 h2 => over_none (fun m hm => by have := hl m hm; omega)
  have hm : ∀ x, n ≤ x → x < k → x ∉ S.map col := by
    intro x h1 h2 hx
    obtain ⟨i, hi, rfl⟩ := List.mem_map.1 hx
    have := hS i hi
    omega
  refine ⟨Nat.le_trans h.len0 hk, Nat.le_trans h.len1 hk, fun x hx => ?_, fun x hx => ?_⟩
  · by_cases hn : x < n
    · exact h.row0 x hn
    · rw [getD_len (by have := h.len0; omega)]
      simp only [cell0, ho x (by omega) hx, hm x (by omega) hx, if_false]
  · by_cases hn : x < n
    · exact h.row1 x hn
    · rw [getD_len (by have := h.len1; omega)]
      simp only [cell1, ho x (by omega) hx, hm x (by omega) hx, if_false]

theorem Upto.bar {i : Nat} {r : List Char × List Char} (h : Upto c l S col (col i) r) (hi : i ∈ S) (hl : ∀ m ∈ l, col i < col m.start ∨ col m.stop < col i) :
    Upto c l S col (col i + 1) (drawPart c r (col i) .id) := by
  have ho := over_none hl
  have hm : col i ∈ S.map col := List.mem_map.2 ⟨i, hi, rfl⟩
  have l0 : (ljust r.1 (col i) ' ').length = col i := by rw [ljust_length]; have := h.len0; omega
  have l1 : (ljust r.2 (col i) ' ').length = col i := by rw [ljust_length]; have := h.len1; omega
  simp only [drawPart]
  refine ⟨by simp [l0], by simp [l1], fun x hx => ?_, fun x hx => ?_⟩
  · simp only [getD_app, l0, ljust_getD]
    split_ifs with c1
    · exact h.row0 x c1
    · have : x = col i := by omega
      subst this
      simp [cell0, ho, hm]
  · simp only [getD_app, l1, ljust_getD]
    split_ifs with c1
    · exact h.row1 x c1
    · have : x = col i := by omega
      subst this
      simp [cell1, ho, hm]

theorem Upto.morph {m : Morph} {r : List Char × List Char} (h : Upto c l S col (col m.start) r) (ho : ∀ x, col m.start ≤ x → x ≤ col m.stop → over l col x = some m)
    (hlt : col m.start < col m.stop) (hw : m.cup = false → col m.start + 2 ≤ col m.stop) :
    Upto c l S col (col m.stop + 1) (drawPart c (drawPart c r (col m.start) .start) (col m.stop) (if m.cup then .cup else .swap)) := by
  have l0 : (ljust r.1 (col m.start) ' ').length = col m.start := by rw [ljust_length]; have := h.len0; omega
  have h1 := h.len1
  cases hc : m.cup
  · have hw := hw hc
    simp only [drawPart, l0, Bool.false_eq_true, if_false]
    have l1 : (ljust r.2 (col m.start) ' ').length = col m.start := by rw [ljust_length]; omega
    rw [center_one (by omega), center_one (by omega)]
    refine ⟨by simp [l0]; omega, by simp [l1]; omega, fun x hx => ?_, fun x hx => ?_⟩
    · simp only [getD_app, l0, ljust_getD, getD_rep, getD_one, List.length_append, List.length_cons, List.length_nil, List.length_replicate]
      by_cases hx2 : x < col m.start
      · rw [if_pos (by omega), if_pos (by omega), if_pos hx2]
        exact h.row0 x hx2
      · simp only [cell0, ho x (by omega) (by omega), hc, true_and, mid]
        split_ifs <;> first | rfl | omega
    · simp only [getD_app, l1, ljust_getD, getD_rep, getD_one, List.length_append, List.length_cons, List.length_nil, List.length_replicate]
      by_cases hx2 : x < col m.start
      · rw [if_pos (by omega), if_pos (by omega), if_pos hx2]
        exact h.row1 x hx2
      · simp only [cell1, ho x (by omega) (by omega), hc, Bool.false_eq_true, if_false]
        obtain ⟨k, hk⟩ : ∃ k, mid (col m.start) (col m.stop) = k := ⟨_, rfl⟩
        rw [hk]
        unfold mid at hk
        split_ifs <;> first | rfl | omega
  · simp only [drawPart, if_true]
    unfold ljust at l0 ⊢
    refine ⟨by simp [l0]; simp at l0; omega, by simp; omega, fun x hx => ?_, fun x hx => ?_⟩
    · simp only [getD_app, getD_rep, getD_one, List.length_append, List.length_cons, List.length_nil, List.length_replicate]
      by_cases hx2 : x < col m.start
      · rw [← h.row0 x hx2]
        have := h.len0
        by_cases hx3 : x < r.1.length
        · rw [if_pos (by omega), if_pos (by omega), if_pos (by omega), if_pos hx3]
        · rw [getD_len (A := r.1) (by omega)]
          split_ifs <;> first | rfl | omega
      · simp only [cell0, ho x (by omega) (by omega), hc, Bool.true_eq_false, false_and, if_false]
        have := h.len0
        split_ifs <;> first | rfl | omega
    · by_cases hx2 : x < col m.start
      · exact h.row1 x hx2
      · simp only [cell1, ho x (by omega) (by omega), hc, if_true]
        exact getD_len (by omega)

/-- The remaining wires. -/
theorem draw_fold (hp : S.Pairwise (· < ·)) (hcol : ∀ i ∈ S, ∀ j ∈ S, i < j → col i < col j) (hs : Sorted l) (ha : ∀ m ∈ l, Adj S m)
    (hw : ∀ m ∈ l, m.cup = false → col m.start + 2 ≤ col m.stop) :
    ∀ (k : Nat) (P R : List Nat) (n : Nat) (r : List Char × List Char), R.length ≤ k → S = P ++ R → Upto c l S col n r → (∀ i ∈ R, n ≤ col i) → (∀ i ∈ P, col i < n) →
      (∀ m ∈ l, m.start ∈ P → m.stop ∈ P) →
      ∃ n', ∀ n'' ≥ n', Upto c l S col n'' (R.foldl (fun ls i => drawPart c ls (col i) ((partAt l i).getD .id)) r) := by
  have hmono : ∀ m ∈ l, ∀ n ∈ l, m.stop < n.start → col m.stop < col n.start := fun m hm n hn h => hcol _ (ha m hm).2.1 _ (ha n hn).1 h
  intro k
  induction k with
  | zero =>
    intro P R n r hk hS hu hR hP hl
    have : R = [] := List.length_eq_zero_iff.1 (by omega)
    subst this
    refine ⟨n, fun n'' hn => hu.blank hn (fun m hm => ?_) (fun i hi => ?_)⟩
    · right; exact hP _ (by have := (ha m hm).2.1; rw [hS] at this; simpa using this)
    · left; exact hP i (by rw [hS] at hi; simpa using hi)
  | succ k ih =>
    intro P R n r hk hS hu hR hP hl
    cases R with
    | nil =>
      refine ⟨n, fun n'' hn => hu.blank hn (fun m hm => ?_) (fun i hi => ?_)⟩
      · right; exact hP _ (by have := (ha m hm).2.1; rw [hS] at this; simpa using this)
      · left; exact hP i (by rw [hS] at hi; simpa using hi)
    | cons i R =>
      have hiS : i ∈ S := by rw [hS]; simp
      have hpp := hp
      rw [hS, List.pairwise_append, List.pairwise_cons] at hpp
      obtain ⟨q1, ⟨q2, q3⟩, q4⟩ := hpp
      have mem : ∀ j ∈ S, j ∈ P ∨ i ≤ j := by
        intro j hj
        rw [hS] at hj
        simp only [List.mem_append, List.mem_cons] at hj
        rcases hj with hj | rfl | hj
        · exact .inl hj
        · exact .inr (Nat.le_refl _)
        · exact .inr (Nat.le_of_lt (q2 j hj))
      have le : ∀ j ∈ S, i ≤ j → col i ≤ col j := by
        intro j hj h
        rcases Nat.eq_or_lt_of_le h with rfl | h
        · exact Nat.le_refl _
        · exact Nat.le_of_lt (hcol i hiS j hj h)
      have hb : Upto c l S col (col i) r := by
        refine hu.blank (hR i (by simp)) (fun m hm => ?_) (fun j hj => ?_)
        · have hm' := ha m hm
          rcases mem _ hm'.1 with h | h
          · right; exact hP _ (hl m hm h)
          · left; exact le _ hm'.1 h
        · rcases mem j hj with h | h
          · left; exact hP j h
          · right; exact le j hj h
      cases hpart : partAt l i with
      | none =>
        have hne : ∀ m ∈ l, i ≠ m.start ∧ i ≠ m.stop := by
          intro m hm
          obtain ⟨e1, e2⟩ := partAt_start hs hm
          constructor <;> (rintro rfl; simp_all)
        have hlm : ∀ m ∈ l, col i < col m.start ∨ col m.stop < col i := by
          intro m hm
          have hm' := ha m hm
          have h1 := hne m hm
          rcases hm'.2.2.2 i hiS with h | h
          · left; exact hcol _ hiS _ hm'.1 (by omega)
          · right; exact hcol _ hm'.2.1 _ hiS (by omega)
        have hstep := hb.bar hiS hlm
        simp only [List.foldl_cons, hpart, Option.getD_none]
        refine ih (P ++ [i]) R (col i + 1) _ (by simpa using hk) (by simp [hS]) hstep ?_ ?_ ?_
        · intro j hj
          exact hcol i hiS j (by rw [hS]; simp [hj]) (q2 j hj)
        · intro j hj
          rcases List.mem_append.1 hj with hj | hj
          · have := hcol j (by rw [hS]; simp [hj]) i hiS (q4 j hj i (by simp)); omega
          · rw [List.mem_singleton.1 hj]; omega
        · intro m hm hms
          rcases List.mem_append.1 hms with h | h
          · exact List.mem_append_left _ (hl m hm h)
          · exact absurd (List.mem_singleton.1 h).symm (hne m hm).1
      | some p =>
        obtain ⟨m, hm, hmp⟩ := partAt_some hpart
        have hm' := ha m hm
        have his : i = m.start := by
          rcases hmp with h | h
          · exact h.1
          · exfalso
            rcases mem _ hm'.1 with h' | h'
            · have hP' := hl m hm h'
              have := q4 _ hP' i (by simp)
              omega
            · have := hm'.2.2.1; omega
        have hR' : ∃ R', R = m.stop :: R' := by
          cases R with
          | nil =>
            exfalso
            rcases mem _ hm'.2.1 with h | h
            · have := q4 _ h i (by simp); have := hm'.2.2.1; omega
            · have h2 := hm'.2.1
              rw [hS] at h2
              simp only [List.mem_append, List.mem_cons, List.not_mem_nil, or_false] at h2
              have := hm'.2.2.1
              rcases h2 with h2 | h2
              · have := q4 _ h2 i (by simp); omega
              · omega
          | cons j R' =>
            refine ⟨R', ?_⟩
            congr 1
            have hj : j ∈ S := by rw [hS]; simp
            have hij := q2 j (by simp)
            rcases hm'.2.2.2 j hj with h | h
            · omega
            · have h2 := hm'.2.1
              rw [hS] at h2
              have hlt := hm'.2.2.1
              simp only [List.mem_append, List.mem_cons] at h2
              rcases h2 with h2 | h2 | h2 | h2
              · have := q4 _ h2 i (by simp); omega
              · omega
              · exact h2.symm
              · have := (List.pairwise_cons.1 q3).1 _ h2; omega
        obtain ⟨R', rfl⟩ := hR'
        subst his
        obtain ⟨e1, e2⟩ := partAt_start hs hm
        have hlt := hcol _ hm'.1 _ hm'.2.1 hm'.2.2.1
        have hstep := hb.morph (fun x h1 h2 => over_some hs hmono hm h1 h2) hlt (hw m hm)
        simp only [List.foldl_cons, e1, e2, Option.getD_some]
        refine ih (P ++ [m.start, m.stop]) R' (col m.stop + 1) _ (by simp at hk ⊢; omega) (by simp [hS]) hstep ?_ ?_ ?_
        · intro j hj
          exact hcol _ hm'.2.1 j (by rw [hS]; simp [hj]) ((List.pairwise_cons.1 q3).1 j hj)
        · intro j hj
          simp only [List.mem_append, List.mem_cons, List.not_mem_nil, or_false] at hj
          rcases hj with hj | rfl | rfl
          · have := hcol j (by rw [hS]; simp [hj]) m.start hiS (q4 j hj m.start (by simp)); omega
          · omega
          · omega
        · intro m2 hm2 hms
          simp only [List.mem_append, List.mem_cons, List.not_mem_nil, or_false] at hms ⊢
          rcases hms with h | h | h
          · exact .inl (hl m2 hm2 h)
          · by_cases e : m2 = m
            · subst e; simp
            · exfalso
              have hd : Disj m2 m := by
                have := hs.1
                obtain ⟨a, ha1, ha2⟩ := List.getElem_of_mem hm2
                obtain ⟨b, hb1, hb2⟩ := List.getElem_of_mem hm
                rw [List.pairwise_iff_getElem] at this
                rcases Nat.lt_trichotomy a b with h | h | h
                · have := this a b ha1 hb1 h; rw [ha2, hb2] at this; exact .inl this
                · subst h; rw [ha2] at hb2; exact absurd hb2 e
                · have := this b a hb1 ha1 h; rw [ha2, hb2] at this; exact .inr this
              have := hs.2 m2 hm2
              have := hm'.2.2.1
              unfold Disj at hd
              omega
          · exfalso
            have h3 := (ha m2 hm2).2.2.2
            have h4 := hs.2 m2 hm2
            have h5 := hm'.2.2.1
            by_cases e : m2 = m
            · subst e; omega
            · have := hs.1
              obtain ⟨a, ha1, ha2⟩ := List.getElem_of_mem hm2
              obtain ⟨b, hb1, hb2⟩ := List.getElem_of_mem hm
              rw [List.pairwise_iff_getElem] at this
              rcases Nat.lt_trichotomy a b with h | h | h
              · have := this a b ha1 hb1 h; rw [ha2, hb2] at this; omega
              · subst h; rw [ha2] at hb2; exact absurd hb2 e
              · have := this b a hb1 ha1 h; rw [ha2, hb2] at this; omega

/-- The lines of one layer. -/
theorem drawLayer_spec (hp : S.Pairwise (· < ·)) (hcol : ∀ i ∈ S, ∀ j ∈ S, i < j → col i < col j) (hs : Sorted l) (ha : ∀ m ∈ l, Adj S m)
    (hw : ∀ m ∈ l, m.cup = false → col m.start + 2 ≤ col m.stop) :
    ∃ r0 r1, drawLayer c l (S.map (fun i => (i, col i))) = (if l.any (fun m => !m.cup) then [r0, r1] else [r0]) ∧ (∀ x, r0.getD x ' ' = cell0 c l S col x) ∧ ∀ x, r1.getD x ' ' = cell1 c l S col x := by
  have hn : S.Nodup := hp.imp (fun h => Nat.ne_of_lt h)
  unfold drawLayer
  rw [parts_eq hn hs (fun m hm => ⟨(ha m hm).1, (ha m hm).2.1⟩) col]
  have hf : ∀ (R : List Nat), (∀ i ∈ R, i ∈ S) → ∀ r, (R.map (fun i => (i, (partAt l i).getD .id))).foldl (fun ls e => drawPart c ls (column (S.map (fun i => (i, col i))) e.1) e.2) r =
      R.foldl (fun ls i => drawPart c ls (col i) ((partAt l i).getD .id)) r := by
    intro R
    induction R with
    | nil => intro _ r; rfl
    | cons i R ih =>
      intro h r
      simp only [List.map_cons, List.foldl_cons]
      rw [column_eq hn col (h i (by simp)), ih (fun j hj => h j (by simp [hj]))]
  rw [hf S (fun _ h => h)]
  obtain ⟨n', h⟩ := draw_fold (c := c) hp hcol hs ha hw S.length [] S 0 ([], []) (Nat.le_refl _) rfl ⟨by simp, by simp, by simp, by simp⟩ (by simp) (by simp) (by simp)
  refine ⟨_, _, rfl, fun x => ?_, fun x => ?_⟩
  · exact (h (n' + x + 1) (by omega)).row0 x (by omega)
  · exact (h (n' + x + 1) (by omega)).row1 x (by omega)

end TextPrint
end Lambeq
