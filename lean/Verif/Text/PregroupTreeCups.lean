import Verif.Text.PregroupTree

/-!
# Pregroup trees to diagrams: drawing nested cups (C86)
-/

namespace Lambeq
open GDiagram Diagram
set_option linter.unusedSimpArgs false
namespace PTree

/-! ## Nested cups can be drawn one after the other -/

theorem split_adjacent {live : List Nat} (hs : live.Pairwise (· < ·)) {l r : Nat} (hl : l ∈ live) (hr : r ∈ live) (hlt : l < r)
    (hno : ∀ x ∈ live, ¬ (l < x ∧ x < r)) : ∃ A B, live = A ++ l :: r :: B := by
  obtain ⟨A, B', rfl⟩ := List.append_of_mem hl
  obtain ⟨_, h2, h3⟩ := List.pairwise_append.1 hs
  have h4 := List.pairwise_cons.1 h2
  have hrB : r ∈ B' := by
    rcases List.mem_append.1 hr with h | h
    · have := h3 r h l (by simp); omega
    · rcases List.mem_cons.1 h with h | h
      · omega
      · exact h
  cases B' with
  | nil => simp at hrB
  | cons r' B =>
    refine ⟨A, B, ?_⟩
    have : r' = r := by
      by_contra hne
      have h5 : r ∈ B := by
        rcases List.mem_cons.1 hrB with h | h
        · exact absurd h.symm hne
        · exact h
      have h6 := (List.pairwise_cons.1 h4.2).1 r h5
      have h7 := h4.1 r' (by simp)
      exact hno r' (by simp) ⟨h7, h6⟩
    rw [this]

/-- no two cups share an end -/
def Disj (a b : Nat × Nat) : Prop := a.1 ≠ b.1 ∧ a.1 ≠ b.2 ∧ a.2 ≠ b.1 ∧ a.2 ≠ b.2

/-- not an end of a cup -/
def notEnd (cs : List (Nat × Nat)) (x : Nat) : Bool := cs.all (fun c => x != c.1 && x != c.2)

theorem joins_of_nested (cs : List (Nat × Nat)) (live : List Nat) (hs : live.Pairwise (· < ·)) (hsp : cs.Pairwise (fun a b => a.2 - a.1 ≤ b.2 - b.1))
    (hlt : ∀ c ∈ cs, c.1 < c.2) (hmem : ∀ c ∈ cs, c.1 ∈ live ∧ c.2 ∈ live) (hdis : cs.Pairwise Disj)
    (hnest : ∀ c ∈ cs, ∀ x ∈ live, c.1 < x → x < c.2 → ∃ d ∈ cs, (x = d.1 ∨ x = d.2) ∧ c.1 < d.1 ∧ d.2 < c.2) :
    ∃ spots, Joins live cs spots (live.filter (notEnd cs)) := by
  induction cs generalizing live with
  | nil =>
    refine ⟨[], ?_⟩
    have : live.filter (notEnd []) = live := by simp [notEnd]
    rw [this]; exact .nil live
  | cons c cs ih =>
    obtain ⟨l, r⟩ := c
    obtain ⟨s1, s2⟩ := List.pairwise_cons.1 hsp
    obtain ⟨d1, d2⟩ := List.pairwise_cons.1 hdis
    have hlr := hlt (l, r) (by simp)
    obtain ⟨A, B, rfl⟩ := split_adjacent hs (hmem (l, r) (by simp)).1 (hmem (l, r) (by simp)).2 hlr (by
      rintro x hx ⟨h1, h2⟩
      obtain ⟨d, hd, _, h3, h4⟩ := hnest (l, r) (by simp) x hx h1 h2
      have h5 := hlt d hd
      rcases List.mem_cons.1 hd with rfl | hd
      · simp at h3
      · have := s1 d hd; simp only at *; omega)
    obtain ⟨p1, p2, p3⟩ := List.pairwise_append.1 hs
    obtain ⟨q1, q2⟩ := List.pairwise_cons.1 p2
    obtain ⟨q3, q4⟩ := List.pairwise_cons.1 q2
    have hrest : ∀ x, x ≠ l → x ≠ r → (x ∈ A ++ l :: r :: B ↔ x ∈ A ++ B) := by
      intro x h1 h2; simp [h1, h2]
    have hin : ∀ x ∈ A ++ B, x ∈ A ++ l :: r :: B ∧ x ≠ l ∧ x ≠ r := by
      intro x hx
      rcases List.mem_append.1 hx with h | h
      · have := p3 x h l (by simp); exact ⟨by simp [h], by omega, by omega⟩
      · have := q1 x (by simp [h]); have := q3 x h; exact ⟨by simp [h], by omega, by omega⟩
    obtain ⟨spots, hj⟩ := ih (A ++ B)
      (List.pairwise_append.2 ⟨p1, q4, fun a ha b hb => p3 a ha b (by simp [hb])⟩) s2 (fun c hc => hlt c (by simp [hc]))
      (fun c hc => by
        obtain ⟨e1, e2, e3, e4⟩ := d1 c hc
        obtain ⟨m1, m2⟩ := hmem c (by simp [hc])
        exact ⟨(hrest _ (Ne.symm e1) (Ne.symm e3)).1 m1, (hrest _ (Ne.symm e2) (Ne.symm e4)).1 m2⟩)
      d2
      (fun c hc x hx h1 h2 => by
        obtain ⟨m, n1, n2⟩ := hin x hx
        obtain ⟨d, hd, h3, h4⟩ := hnest c (by simp [hc]) x m h1 h2
        rcases List.mem_cons.1 hd with rfl | hd
        · simp only at h3; omega
        · exact ⟨d, hd, h3, h4⟩)
    refine ⟨(A, B) :: spots, ?_⟩
    have hf : (A ++ l :: r :: B).filter (notEnd ((l, r) :: cs)) = (A ++ B).filter (notEnd cs) := by
      have hcong : ∀ M : List Nat, (∀ x ∈ M, x ≠ l ∧ x ≠ r) → M.filter (notEnd ((l, r) :: cs)) = M.filter (notEnd cs) := by
        intro M hM
        refine List.filter_congr (fun x hx => ?_)
        simp [notEnd, hM x hx]
      rw [List.filter_append, List.filter_append, List.filter_cons_of_neg (by simp [notEnd]), List.filter_cons_of_neg (by simp [notEnd]),
        hcong A (fun x hx => (hin x (by simp [hx])).2), hcong B (fun x hx => (hin x (by simp [hx])).2)]
    rw [hf]
    exact .cons l r hj

/-! ## The loop that draws them -/

theorem idxOf_lt_of_sorted {l : List Nat} (hs : l.Pairwise (· < ·)) {x y : Nat} (hx : x ∈ l) (hy : y ∈ l) (h : x < y) : l.idxOf x < l.idxOf y := by
  induction l with
  | nil => simp at hx
  | cons a l ih =>
    obtain ⟨h1, h2⟩ := List.pairwise_cons.1 hs
    by_cases hax : a = x
    · subst hax
      rw [List.idxOf_cons_self, List.idxOf_cons_ne _ (by omega)]
      omega
    · have hx' : x ∈ l := by simpa [Ne.symm hax] using hx
      have := h1 x hx'
      have hay : a ≠ y := by omega
      have hy' : y ∈ l := by simpa [Ne.symm hay] using hy
      rw [List.idxOf_cons_ne _ hax, List.idxOf_cons_ne _ hay]
      have := ih h2 hx' hy'
      omega

/-- a cup between two live wires, as the loop sees it -/
def curMor (live : List Nat) (c : Nat × Nat) : Mor × Int := ((.cup, (live.idxOf c.1 : Int), (live.idxOf c.2 : Int)), (live.idxOf c.1 : Int))

theorem afterCup_cur {A B : List Nat} {s e : Nat} (hs : (A ++ s :: e :: B).Pairwise (· < ·)) (c : Nat × Nat) (hlt : c.1 < c.2) (h1 : c.1 ∈ A ++ B) (h2 : c.2 ∈ A ++ B) :
    afterCup (A.length : Int) ((A.length : Int) + 1) (curMor (A ++ s :: e :: B) c) = curMor (A ++ B) c := by
  obtain ⟨p1, p2, p3⟩ := List.pairwise_append.1 hs
  obtain ⟨q1, q2⟩ := List.pairwise_cons.1 p2
  obtain ⟨q3, q4⟩ := List.pairwise_cons.1 q2
  have hA : ∀ x ∈ A, (A ++ s :: e :: B).idxOf x = A.idxOf x ∧ (A ++ B).idxOf x = A.idxOf x ∧ A.idxOf x < A.length := by
    intro x hx
    exact ⟨List.idxOf_append_of_mem hx, List.idxOf_append_of_mem hx, List.idxOf_lt_length_of_mem hx⟩
  have hB : ∀ x ∈ B, (A ++ s :: e :: B).idxOf x = A.length + (B.idxOf x + 2) ∧ (A ++ B).idxOf x = A.length + B.idxOf x := by
    intro x hx
    have hxA : x ∉ A := fun h => by have := p3 x h x (by simp [hx]); omega
    have := q1 x (by simp [hx]); have := q3 x hx
    rw [List.idxOf_append_of_notMem hxA, List.idxOf_append_of_notMem hxA, List.idxOf_cons_ne _ (by omega), List.idxOf_cons_ne _ (by omega)]
    exact ⟨by omega, rfl⟩
  unfold curMor afterCup
  rcases List.mem_append.1 h1 with g1 | g1 <;> rcases List.mem_append.1 h2 with g2 | g2
  · obtain ⟨a1, a2, a3⟩ := hA _ g1
    obtain ⟨b1, b2, b3⟩ := hA _ g2
    rw [a1, a2, b1, b2]
    rw [if_neg (by simp only; omega), if_neg (by simp only; omega)]
  · obtain ⟨a1, a2, a3⟩ := hA _ g1
    obtain ⟨b1, b2⟩ := hB _ g2
    rw [a1, a2, b1, b2]
    rw [if_pos (by simp only; omega)]
    simp only [Prod.mk.injEq, true_and, and_true]; omega
  · have := p3 _ g2 _ (show c.1 ∈ s :: e :: B by simp [g1]); omega
  · obtain ⟨a1, a2⟩ := hB _ g1
    obtain ⟨b1, b2⟩ := hB _ g2
    have := idxOf_lt_of_sorted q4 g1 g2 hlt
    rw [a1, a2, b1, b2]
    rw [if_neg (by simp only; omega), if_pos (by simp only; omega)]
    simp only [Prod.mk.injEq, true_and, and_true]; omega

theorem place_joins (types : Ty) {live : List Nat} {cups : List (Nat × Nat)} {spots : List (List Nat × List Nat)} {rest : List Nat}
    (hj : Joins live cups spots rest) :
    ∀ (n : Nat) (d : GDiagram), cups.length ≤ n → live.Pairwise (· < ·) → (∀ c ∈ cups, c.1 < c.2) → (∀ c ∈ cups, c.1 ∈ live ∧ c.2 ∈ live) → cups.Pairwise Disj →
      d.cod.map some = live.map (fun i => types[i]?) → (∀ c ∈ cups, ∃ x y, types[c.1]? = some x ∧ types[c.2]? = some y ∧ [x] = Ty.l [y]) →
      ∃ d' ls, place n (cups.map (curMor live)) d = .ok d' ∧ d'.dom = d.dom ∧ d'.layers = d.layers ++ ls ∧
        d'.cod.map some = rest.map (fun i => types[i]?) ∧
        List.Forall₂ (fun (p : (Nat × Nat) × (List Nat × List Nat)) l => cupLayer types p.2 p.1 l) (cups.zip spots) ls := by
  induction hj with
  | nil live =>
    intro n d _ _ _ _ _ hc _
    refine ⟨d, [], ?_, rfl, by simp, hc, .nil⟩
    cases n <;> rfl
  | @cons A B cups spots rest s e hj ih =>
    intro n d hn hs hlt hmem hdis hc hadj
    obtain ⟨n, rfl⟩ : ∃ m, n = m + 1 := ⟨n - 1, by simp at hn; omega⟩
    obtain ⟨x, y, hx, hy, hxy⟩ := hadj (s, e) (by simp)
    obtain ⟨p1, p2, p3⟩ := List.pairwise_append.1 hs
    obtain ⟨q1, q2⟩ := List.pairwise_cons.1 p2
    obtain ⟨q3, q4⟩ := List.pairwise_cons.1 q2
    obtain ⟨d1, d2⟩ := List.pairwise_cons.1 hdis
    obtain ⟨a, b0, hcod, hal, ha, hb0⟩ := map_some_append hc
    have : ∃ b, b0 = x :: y :: b ∧ b.map some = B.map (fun i => types[i]?) := by
      match b0, hb0 with
      | [], h => simp at h
      | [_], h => simp at h
      | u :: v :: b, h =>
        simp only [List.map_cons, List.cons.injEq] at h
        obtain ⟨h1, h2, h3⟩ := h
        have e1 : types[s]? = some x := hx
        have e2 : types[e]? = some y := hy
        rw [e1] at h1; rw [e2] at h2
        injection h1 with h1; injection h2 with h2
        subst h1 h2
        exact ⟨b, rfl, h3⟩
    obtain ⟨b, rfl, hb⟩ := this
    have hsA : s ∉ A := fun h => by have := p3 s h s (by simp); omega
    have heA : e ∉ A := fun h => by have := p3 e h e (by simp); omega
    have hse : s < e := q1 e (by simp)
    have i1 : (A ++ s :: e :: B).idxOf s = A.length := by rw [List.idxOf_append_of_notMem hsA, List.idxOf_cons_self]; omega
    have i2 : (A ++ s :: e :: B).idxOf e = A.length + 1 := by
      rw [List.idxOf_append_of_notMem heA, List.idxOf_cons_ne _ (by omega), List.idxOf_cons_self]
    have hmb : morphBox d.cod (.cup, (A.length : Int), (A.length : Int) + 1) = .ok (ofBox (.cup x y false)) := by
      unfold morphBox
      dsimp only
      have g1 : pySlice d.cod (some (A.length : Int)) (some ((A.length : Int) + 1)) = [x] := by
        refine pySlice_one (by omega) ?_
        rw [hcod, ← hal]; simp
      have g2 : pySlice d.cod (some ((A.length : Int) + 1)) (some ((A.length : Int) + 1 + 1)) = [y] := by
        refine pySlice_one (by omega) ?_
        rw [hcod, ← hal, show ((a.length : Int) + 1).toNat = a.length + 1 by omega]; simp
      rw [g1, g2]
      simp [mkCup, Box.atomicCup, Box.cupAdjoint, hxy, Except.map]
    have hplace : andThen d (tensor (tensor (Diagram.id (pySlice d.cod none (some (A.length : Int)))) (ofBox (.cup x y false)))
        (Diagram.id (pySlice d.cod (some ((A.length : Int) + 2)) none))) = .ok ⟨d.dom, a ++ b, d.layers ++ [⟨a, .cup x y false, b⟩]⟩ := by
      rw [pySlice_nat_to, show ((A.length : Int) + 2) = ((A.length + 2 : Nat) : Int) by simp, pySlice_nat_from, hcod, ← hal]
      have e1 : (a ++ x :: y :: b).take a.length = a := by simp
      have e2 : (a ++ x :: y :: b).drop (a.length + 2) = b := by
        rw [show a ++ x :: y :: b = (a ++ [x, y]) ++ b by simp, show a.length + 2 = (a ++ [x, y]).length by simp, List.drop_left]
      rw [e1, e2, andThen_eq_ok (by simp [tensor_eq, Diagram.id, ofBox, BoxSig.dom, Box.dom, hcod])]
      simp [tensor_eq, Diagram.id, ofBox, BoxSig.dom, BoxSig.cod, Box.dom, Box.cod, Layer.extend]
    have hmem' : ∀ c ∈ cups, c.1 ∈ A ++ B ∧ c.2 ∈ A ++ B := by
      intro c hc'
      obtain ⟨e1, e2, e3, e4⟩ := d1 c hc'
      obtain ⟨m1, m2⟩ := hmem c (by simp [hc'])
      simp only [List.mem_append, List.mem_cons] at m1 m2 ⊢
      simp only at e1 e2 e3 e4
      constructor
      · rcases m1 with h | h | h | h
        · exact .inl h
        · exact absurd h.symm e1
        · exact absurd h.symm e3
        · exact .inr h
      · rcases m2 with h | h | h | h
        · exact .inl h
        · exact absurd h.symm e2
        · exact absurd h.symm e4
        · exact .inr h
    obtain ⟨d', ls, g1, g2, g3, g4, g5⟩ := ih n ⟨d.dom, a ++ b, d.layers ++ [⟨a, .cup x y false, b⟩]⟩ (by simpa using hn)
      (List.pairwise_append.2 ⟨p1, q4, fun u hu v hv => p3 u hu v (by simp [hv])⟩) (fun c hc' => hlt c (by simp [hc'])) hmem' d2
      (by simp [ha, hb]) (fun c hc' => hadj c (by simp [hc']))
    refine ⟨d', ⟨a, .cup x y false, b⟩ :: ls, ?_, g2, ?_, g4, ?_⟩
    · have hcur : curMor (A ++ s :: e :: B) (s, e) = ((.cup, (A.length : Int), (A.length : Int) + 1), (A.length : Int)) := by
        simp only [curMor, i1, i2]; simp
      have hmap : (cups.map (curMor (A ++ s :: e :: B))).map (afterCup (A.length : Int) ((A.length : Int) + 1)) = cups.map (curMor (A ++ B)) := by
        rw [List.map_map]
        refine List.map_congr_left (fun c hc' => ?_)
        exact afterCup_cur hs c (hlt c (by simp [hc'])) (hmem' c hc').1 (hmem' c hc').2
      rw [List.map_cons, hcur, place]
      simp only [kindMorph, hmb, hplace, if_true, hmap]
      exact g1
    · rw [g3]; simp
    · rw [List.zip_cons_cons]
      exact .cons ⟨x, y, hx, hy, rfl, ha, hb⟩ g5

/-! ## No swaps -/

/-- two morphisms that need no swap: they do not cross, and the first does not cover the second if that is a free wire -/
def NoCross (m o : Mor) : Prop :=
  ¬ (o.2.1 = o.2.2 ∧ m.2.1 < o.2.1 ∧ o.2.1 < m.2.2) ∧ ¬ (o.2.1 ≠ o.2.2 ∧ o.2.1 < m.2.1 ∧ m.2.1 < o.2.2 ∧ o.2.2 < m.2.2) ∧
    ¬ (o.2.1 ≠ o.2.2 ∧ m.2.1 < o.2.1 ∧ o.2.1 < m.2.2 ∧ m.2.2 < o.2.2)

theorem swapStep_id (frees : List (Int × Nat)) (ms : List Mor) (t : MKind) (l r : Int) (j : Nat) (h : ∀ o, ms[j]? = some o → NoCross (t, l, r) o) :
    swapStep frees ⟨ms, l, r, []⟩ j = ⟨ms, l, r, []⟩ := by
  unfold swapStep
  cases hj : ms[j]? with
  | none => rfl
  | some o =>
    obtain ⟨oT, oL, oR⟩ := o
    obtain ⟨h1, h2, h3⟩ := h _ hj
    simp only at h1 h2 h3 ⊢
    by_cases e : oL = oR
    · rw [if_pos e, if_neg (fun hh => h1 ⟨e, hh⟩)]
    · rw [if_neg e, if_neg (fun hh => h2 ⟨e, hh⟩), if_neg (fun hh => h3 ⟨e, hh⟩)]

theorem foldl_swapStep_id (frees : List (Int × Nat)) (ms : List Mor) (t : MKind) (l r : Int) (js : List Nat)
    (h : ∀ j ∈ js, ∀ o, ms[j]? = some o → NoCross (t, l, r) o) : js.foldl (swapStep frees) ⟨ms, l, r, []⟩ = ⟨ms, l, r, []⟩ := by
  induction js with
  | nil => rfl
  | cons j js ih => rw [List.foldl_cons, swapStep_id frees ms t l r j (h j (by simp)), ih (fun k hk => h k (by simp [hk]))]

theorem addSwaps_id (frees : List (Int × Nat)) (ms : List Mor) (h : ms.Pairwise NoCross) (n i : Nat) (hn : ms.length ≤ n + i) :
    addSwaps frees n i ms = ms.drop i := by
  induction n generalizing i with
  | zero => rw [addSwaps, List.drop_eq_nil_of_le (by omega)]
  | succ n ih =>
    rw [addSwaps]
    cases hi : ms[i]? with
    | none => rw [List.drop_eq_nil_of_le (List.getElem?_eq_none_iff.1 hi)]
    | some m =>
      obtain ⟨t, l, r⟩ := m
      simp only
      have hlt : i < ms.length := by
        by_contra hc
        rw [List.getElem?_eq_none (by omega)] at hi; cases hi
      rw [foldl_swapStep_id frees ms t l r]
      · simp only [List.nil_append]
        rw [ih (i + 1) (by omega), List.drop_eq_getElem_cons hlt]
        congr 1
        rw [List.getElem?_eq_getElem hlt] at hi
        exact (Option.some.inj hi).symm
      · intro j hj o ho
        have hij : i < j := by have := List.mem_range'.1 hj; omega
        have hjl : j < ms.length := by
          by_contra hc
          rw [List.getElem?_eq_none (by omega)] at ho; cases ho
        have := List.pairwise_iff_getElem.1 h i j hlt hjl hij
        rw [List.getElem?_eq_getElem hlt] at hi
        rw [List.getElem?_eq_getElem hjl] at ho
        rw [Option.some.inj hi, Option.some.inj ho] at this
        exact this

end PTree
end Lambeq
