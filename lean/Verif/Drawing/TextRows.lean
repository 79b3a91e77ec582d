import Verif.Drawing.TextPlace

namespace Lambeq
namespace TextPrint
set_option linter.unusedSimpArgs false

/-! ## The morphisms of the diagram -/

/-- Which strands the cups of a diagram join, and the strands at the end: `ss` are the strands above the first of the boxes. -/
def links : List Nat → List (Bool × Nat) → List (Nat × Nat) × List Nat
  | ss, [] => ([], ss)
  | ss, (true, off) :: bs => ((ss.getD off 0, ss.getD (off + 1) 0) :: (links (ss.take off ++ ss.drop (off + 2)) bs).1, (links (ss.take off ++ ss.drop (off + 2)) bs).2)
  | ss, (false, off) :: bs => links (ss.take off ++ [ss.getD (off + 1) 0, ss.getD off 0] ++ ss.drop (off + 2)) bs

theorem take_drop (A : List Nat) (x y : Nat) (B : List Nat) {n : Nat} (h : A.length = n) : (A ++ x :: y :: B).take n = A ∧ (A ++ x :: y :: B).drop (n + 2) = B := by
  subst h
  constructor <;> simp

theorem links_col : ∀ (bs : List (Bool × Nat)) (scan : List Nat) (f : Nat → Nat), scan.Pairwise (· < ·) → InRange scan.length bs →
    Valid scan (colMorphs scan bs) ∧ links (scan.map f) bs = (joins f (colMorphs scan bs), (left scan (colMorphs scan bs)).map (final f (colMorphs scan bs))) := by
  intro bs
  induction bs with
  | nil => intro scan f _ _; simp [colMorphs, Valid, links, joins, left, final]
  | cons b bs ih =>
    obtain ⟨cup, off⟩ := b
    intro scan f hp hr
    obtain ⟨h1, h2⟩ := hr
    obtain ⟨L, a, c, R, rfl, hL⟩ := split_at h1
    have ga : (L ++ a :: c :: R).getD off 0 = a := by rw [← hL]; simp [List.getD_eq_getElem?_getD]
    have gc : (L ++ a :: c :: R).getD (off + 1) 0 = c := by rw [← hL]; simp [List.getD_eq_getElem?_getD, List.getElem?_append_right]
    have gfa : ((L ++ a :: c :: R).map f).getD off 0 = f a := by rw [← hL]; simp [List.getD_eq_getElem?_getD]
    have gfc : ((L ++ a :: c :: R).map f).getD (off + 1) 0 = f c := by rw [← hL]; simp [List.getD_eq_getElem?_getD, List.getElem?_append_right]
    have e : (L ++ a :: c :: R).take off ++ (L ++ a :: c :: R).drop (off + 2) = L ++ R := by rw [← hL]; simp
    have hsub : (L ++ R).Pairwise (· < ·) := by
      refine List.Pairwise.sublist ?_ hp
      exact List.Sublist.append (List.Sublist.refl _) (List.Sublist.trans (List.sublist_cons_self _ _) (List.sublist_cons_self _ _))
    rw [List.pairwise_append] at hp
    obtain ⟨pL, pR, pLR⟩ := hp
    obtain ⟨pa, pR⟩ := List.pairwise_cons.1 pR
    obtain ⟨pc, pR⟩ := List.pairwise_cons.1 pR
    have hac : a < c := pa c (by simp)
    have hadj : Adj (L ++ a :: c :: R) ⟨cup, a, c⟩ := by
      refine ⟨by simp, by simp, hac, ?_⟩
      intro x hx
      simp only [List.mem_append, List.mem_cons] at hx
      rcases hx with hx | rfl | rfl | hx
      · left; exact Nat.le_of_lt (pLR x hx a (by simp))
      · left; exact Nat.le_refl _
      · right; exact Nat.le_refl _
      · right; exact Nat.le_of_lt (pc x hx)
    have neL : ∀ x ∈ L, x ≠ a ∧ x ≠ c := fun x hx => ⟨Nat.ne_of_lt (pLR x hx a (by simp)), Nat.ne_of_lt (pLR x hx c (by simp))⟩
    have neR : ∀ x ∈ R, x ≠ a ∧ x ≠ c := fun x hx => ⟨(Nat.ne_of_lt (pa x (by simp [hx]))).symm, (Nat.ne_of_lt (pc x hx)).symm⟩
    have haft : after (L ++ a :: c :: R) ⟨true, a, c⟩ = L ++ R := by
      unfold after
      simp only [if_true]
      rw [List.filter_append, List.filter_cons_of_neg (by simp), List.filter_cons_of_neg (by simp),
        List.filter_eq_self.2 (fun x hx => by simp [neL x hx]), List.filter_eq_self.2 (fun x hx => by simp [neR x hx])]
    cases cup
    · simp only [colMorphs, ga, gc, Bool.false_eq_true, if_false] at h2 ⊢
      have hp' : (L ++ a :: c :: R).Pairwise (· < ·) := by
        rw [List.pairwise_append, List.pairwise_cons, List.pairwise_cons]
        exact ⟨pL, ⟨pa, pc, pR⟩, pLR⟩
      obtain ⟨v, k⟩ := ih (L ++ a :: c :: R) (moved f ⟨false, a, c⟩) hp' h2
      refine ⟨⟨hadj, by simpa [after] using v⟩, ?_⟩
      have em : ((L ++ a :: c :: R).map f).take off ++ [((L ++ a :: c :: R).map f).getD (off + 1) 0, ((L ++ a :: c :: R).map f).getD off 0] ++ ((L ++ a :: c :: R).map f).drop (off + 2) =
          (L ++ a :: c :: R).map (moved f ⟨false, a, c⟩) := by
        have hLf : (L.map f).length = off := by simpa using hL
        obtain ⟨t1, t2⟩ := take_drop (L.map f) (f a) (f c) (R.map f) hLf
        rw [gfa, gfc]
        have m1 : L.map (moved f ⟨false, a, c⟩) = L.map f := List.map_congr_left (fun x hx => by simp [moved, neL x hx])
        have m2 : R.map (moved f ⟨false, a, c⟩) = R.map f := List.map_congr_left (fun x hx => by simp [moved, neR x hx])
        simp only [List.map_append, List.map_cons, m1, m2]
        have ma : moved f ⟨false, a, c⟩ a = f c := by simp [moved]
        have mc : moved f ⟨false, a, c⟩ c = f a := by
          simp only [moved]
          simp only [Bool.false_eq_true, if_false, if_neg (Nat.ne_of_gt hac), if_true]
        rw [ma, mc, t1, t2]
        simp
      rw [links, em, k]
      simp [joins, left, final, after]
    · simp only [colMorphs, ga, gc, if_true] at h2 ⊢
      rw [e]
      have hlen : (L ++ a :: c :: R).length - 2 = (L ++ R).length := by simp; omega
      rw [hlen] at h2
      obtain ⟨v, k⟩ := ih (L ++ R) f hsub h2
      refine ⟨⟨hadj, by rw [haft]; exact v⟩, ?_⟩
      have em : ((L ++ a :: c :: R).map f).take off ++ ((L ++ a :: c :: R).map f).drop (off + 2) = (L ++ R).map f := by
        have hLf : (L.map f).length = off := by simpa using hL
        obtain ⟨t1, t2⟩ := take_drop (L.map f) (f a) (f c) (R.map f) hLf
        simp only [List.map_append, List.map_cons]
        rw [t1, t2]
      rw [links, em, k, gfa, gfc]
      simp [joins, left, final, moved, haft]

/-! ## Drawing a layer -/

/-- What `types` says for a wire. -/
def partAt : List Morph → Nat → Option Part
  | [], _ => none
  | m :: ms, i => if i = m.start then some .start else if i = m.stop then some (if m.cup then .cup else .swap) else partAt ms i

theorem setKey_map {S : List Nat} (hn : S.Nodup) {k : Nat} (hk : k ∈ S) (v : Part) (g : Nat → Part) :
    setKey k v (S.map (fun i => (i, g i))) = S.map (fun i => (i, if i = k then v else g i)) := by
  induction S with
  | nil => simp at hk
  | cons s S ih =>
    obtain ⟨h1, h2⟩ := List.nodup_cons.1 hn
    simp only [List.map_cons, setKey]
    by_cases e : s = k
    · subst e
      simp only [if_true]
      congr 1
      exact List.map_congr_left (fun i hi => by simp [show i ≠ s from fun h => h1 (h ▸ hi)])
    · simp only [e, if_false]
      congr 1
      exact ih h2 (by rcases List.mem_cons.1 hk with h | h; exact absurd h.symm e; exact h)

theorem partAt_none {l : List Morph} {i : Nat} (h : ∀ m ∈ l, i ≠ m.start ∧ i ≠ m.stop) : partAt l i = none := by
  induction l with
  | nil => rfl
  | cons m ms ih =>
    have := h m (by simp)
    simp only [partAt, this.1, this.2, if_false]
    exact ih (fun n hn => h n (by simp [hn]))

theorem parts_fold {S : List Nat} (hn : S.Nodup) : ∀ (l : List Morph) (g : Nat → Part), Sorted l → (∀ m ∈ l, m.start ∈ S ∧ m.stop ∈ S) →
    l.foldl (fun t m => setKey m.stop (if m.cup then .cup else .swap) (setKey m.start .start t)) (S.map (fun i => (i, g i))) = S.map (fun i => (i, (partAt l i).getD (g i))) := by
  intro l
  induction l with
  | nil => intro g _ _; simp [partAt]
  | cons m ms ih =>
    intro g hs hm
    obtain ⟨h1, h2⟩ := List.pairwise_cons.1 hs.1
    have hlt := hs.2 m (by simp)
    have hm' := hm m (by simp)
    simp only [List.foldl_cons]
    rw [setKey_map hn hm'.1, setKey_map hn hm'.2, ih _ ⟨h2, fun n hn => hs.2 n (by simp [hn])⟩ (fun n hn => hm n (by simp [hn]))]
    apply List.map_congr_left
    intro i _
    congr 1
    have key : i = m.start ∨ i = m.stop → partAt ms i = none := by
      intro hi
      refine partAt_none (fun n hn => ?_)
      have := h1 n hn
      have := hs.2 n (by simp [hn])
      rcases hi with rfl | rfl <;> omega
    simp only [partAt]
    by_cases c1 : i = m.start
    · rw [key (.inl c1)]
      have : i ≠ m.stop := by omega
      simp only [this, c1, if_true, if_false, Option.getD]
      rw [if_neg (by omega)]
    · by_cases c2 : i = m.stop
      · rw [key (.inr c2)]
        simp only [if_neg c1, if_pos c2]
        rfl
      · simp [c1, c2]

theorem parts_eq {S : List Nat} (hn : S.Nodup) {l : List Morph} (hs : Sorted l) (hm : ∀ m ∈ l, m.start ∈ S ∧ m.stop ∈ S) (col : Nat → Nat) :
    parts l (S.map (fun i => (i, col i))) = S.map (fun i => (i, (partAt l i).getD .id)) := by
  unfold parts
  rw [List.map_map]
  exact parts_fold hn l (fun _ => .id) hs hm

theorem column_eq {S : List Nat} (hn : S.Nodup) (col : Nat → Nat) {i : Nat} (hi : i ∈ S) : column (S.map (fun i => (i, col i))) i = col i := by
  unfold column
  induction S with
  | nil => simp at hi
  | cons s S ih =>
    obtain ⟨h1, h2⟩ := List.nodup_cons.1 hn
    by_cases e : s = i
    · subst e; simp
    · rw [List.map_cons, List.find?_cons_of_neg (by simpa using e)]
      exact ih h2 (by rcases List.mem_cons.1 hi with h | h; exact absurd h.symm e; exact h)

theorem partAt_start {l : List Morph} (hs : Sorted l) {m : Morph} (hm : m ∈ l) : partAt l m.start = some .start ∧ partAt l m.stop = some (if m.cup then .cup else .swap) := by
  induction l with
  | nil => simp at hm
  | cons n l ih =>
    obtain ⟨h1, h2⟩ := List.pairwise_cons.1 hs.1
    have hn := hs.2 n (by simp)
    rcases List.mem_cons.1 hm with rfl | hm'
    · refine ⟨by simp [partAt], ?_⟩
      simp only [partAt]
      rw [if_neg (by omega)]
      simp
    · have := h1 m hm'
      have h3 := hs.2 m hm
      obtain ⟨i1, i2⟩ := ih ⟨h2, fun k hk => hs.2 k (by simp [hk])⟩ hm'
      refine ⟨?_, ?_⟩
      · simp only [partAt]; rw [if_neg (by omega), if_neg (by omega), i1]
      · simp only [partAt]; rw [if_neg (by omega), if_neg (by omega), i2]

theorem partAt_some {l : List Morph} {i : Nat} {p : Part} (h : partAt l i = some p) : ∃ m ∈ l, (i = m.start ∧ p = .start) ∨ (i = m.stop ∧ p = if m.cup then .cup else .swap) := by
  induction l with
  | nil => simp [partAt] at h
  | cons n l ih =>
    simp only [partAt] at h
    split_ifs at h with c1 c2 c3
    · exact ⟨n, by simp, .inl ⟨c1, by simpa using h.symm⟩⟩
    · exact ⟨n, by simp, .inr ⟨c2, by simpa [c3] using h.symm⟩⟩
    · exact ⟨n, by simp, .inr ⟨c2, by simpa [c3] using h.symm⟩⟩
    · obtain ⟨m, hm, h⟩ := ih h
      exact ⟨m, by simp [hm], h⟩

end TextPrint
end Lambeq
