import Verif.Drawing.TextHead

namespace Lambeq
namespace TextPrint
set_option linter.unusedSimpArgs false

/-! ## Specification -/

/-- The strands of a pregroup diagram: words make new strands, numbered in order; cups join two of them; swaps exchange two. Gives the joined pairs and the strands at the end.
(Other boxes do not occur.) -/
def wiring : List Nat → Nat → List GLayer → List (Nat × Nat) × List Nat
  | ss, _, [] => ([], ss)
  | ss, n, l :: ls => match l.box with
    | .word _ c _ => wiring (ss.take l.left.length ++ List.range' n c.length ++ ss.drop l.left.length) (n + c.length) ls
    | .cup _ _ _ => let r := wiring (ss.take l.left.length ++ ss.drop (l.left.length + 2)) n ls
      ((ss.getD l.left.length 0, ss.getD (l.left.length + 1) 0) :: r.1, r.2)
    | _ => wiring (ss.take l.left.length ++ [ss.getD (l.left.length + 1) 0, ss.getD l.left.length 0] ++ ss.drop (l.left.length + 2)) n ls

/-- The lines below the header: for each layer one line, or two if it has a swap. `S` are the wires above. -/
inductive Picture (c : Chars) (col : Nat → Nat) : List Nat → List (List Morph) → List (List Char) → Prop
  | nil (S : List Nat) : Picture c col S [] []
  | one {S : List Nat} {l : List Morph} {ls : List (List Morph)} {r : List Char} {rows : List (List Char)} : (∀ m ∈ l, m.cup = true) → (∀ x, r.getD x ' ' = cell0 c l S col x) →
      Picture c col (left S l) ls rows → Picture c col S (l :: ls) (r :: rows)
  | two {S : List Nat} {l : List Morph} {ls : List (List Morph)} {r r' : List Char} {rows : List (List Char)} : (∃ m ∈ l, m.cup = false) → (∀ x, r.getD x ' ' = cell0 c l S col x) →
      (∀ x, r'.getD x ' ' = cell1 c l S col x) → Picture c col (left S l) ls rows → Picture c col S (l :: ls) (r :: r' :: rows)

/-- A layer `ls` below a layer with nothing in the way of some morphism. -/
def Tight (layers : List (List Morph)) : Prop := ∀ k, ∀ m ∈ layers.getD (k + 1) [], ∃ m' ∈ layers.getD k [], m'.start ≤ m.stop ∧ m.start ≤ m'.stop

/-! ## Proof -/

theorem dropWires_eq (col : Nat → Nat) : ∀ (l : List Morph) (S : List Nat), dropWires l (S.map (fun i => (i, col i))) = (left S l).map (fun i => (i, col i)) := by
  intro l
  induction l with
  | nil => intro S; rfl
  | cons m l ih =>
    intro S
    unfold dropWires at ih ⊢
    simp only [List.foldl_cons, left, after]
    rw [← ih]
    congr 1
    split_ifs
    · rw [List.filter_map]; rfl
    · rfl

theorem adj_after {S : List Nat} {m n : Morph} (h : Adj (after S m) n) (hm : m.start < m.stop) (hd : m.stop < n.start) : Adj S n := by
  refine ⟨after_sub h.1, after_sub h.2.1, h.2.2.1, fun x hx => ?_⟩
  by_cases h1 : x = m.start ∨ x = m.stop
  · left; rcases h1 with rfl | rfl <;> omega
  · exact h.2.2.2 x (mem_after hx (by tauto) (by tauto))

theorem layer_adj : ∀ (l : List Morph) (S : List Nat) (rest : List Morph), Sorted l → Valid S (l ++ rest) → (∀ m ∈ l, Adj S m) ∧ Valid (left S l) rest := by
  intro l
  induction l with
  | nil => intro S rest _ hv; exact ⟨by simp, hv⟩
  | cons m l ih =>
    intro S rest hs hv
    obtain ⟨h1, h2⟩ := List.pairwise_cons.1 hs.1
    obtain ⟨v1, v2⟩ := hv
    obtain ⟨i1, i2⟩ := ih (after S m) rest ⟨h2, fun n hn => hs.2 n (by simp [hn])⟩ v2
    refine ⟨?_, i2⟩
    intro n hn
    rcases List.mem_cons.1 hn with rfl | hn'
    · exact v1
    · exact adj_after (i1 n hn') (hs.2 m (by simp)) (h1 n hn')

theorem left_sub : ∀ (l : List Morph) (S : List Nat), (left S l).Sublist S := by
  intro l
  induction l with
  | nil => intro S; exact List.Sublist.refl _
  | cons m l ih =>
    intro S
    refine (ih _).trans ?_
    unfold after
    split_ifs
    · exact List.filter_sublist
    · exact List.Sublist.refl _

theorem draw_all {c : Chars} {col : Nat → Nat} : ∀ (layers : List (List Morph)) (S : List Nat), S.Pairwise (· < ·) → (∀ i ∈ S, ∀ j ∈ S, i < j → col i + 2 ≤ col j) → (∀ l ∈ layers, Sorted l) →
    Valid S layers.flatten → Picture c col S layers (drawAll c layers (S.map (fun i => (i, col i)))) := by
  intro layers
  induction layers with
  | nil => intro S _ _ _ _; exact .nil S
  | cons l ls ih =>
    intro S hp hcol hs hv
    rw [List.flatten_cons] at hv
    obtain ⟨v1, v2⟩ := layer_adj l S _ (hs l (by simp)) hv
    obtain ⟨r0, r1, e, h0, h1⟩ := drawLayer_spec (c := c) hp (fun i hi j hj h => by have := hcol i hi j hj h; omega) (hs l (by simp)) v1
      (fun m hm _ => hcol _ (v1 m hm).1 _ (v1 m hm).2.1 (v1 m hm).2.2.1)
    simp only [drawAll, dropWires_eq]
    have hsub := left_sub l S
    have rest := ih (left S l) (hp.sublist hsub) (fun i hi j hj h => hcol i (hsub.subset hi) j (hsub.subset hj) h) (fun k hk => hs k (by simp [hk])) v2
    rw [e]
    split_ifs with hc
    · obtain ⟨m, hm, hm2⟩ := List.any_eq_true.1 hc
      exact .two ⟨m, hm, by simpa using hm2⟩ h0 h1 rest
    · refine .one (fun m hm => ?_) h0 rest
      have : ¬ ∃ m ∈ l, m.cup = false := by
        rintro ⟨m, hm, h⟩
        exact hc (List.any_eq_true.2 ⟨m, hm, by simp [h]⟩)
      cases hmc : m.cup
      · exact absurd ⟨m, hm, hmc⟩ this
      · rfl

/-! ### The morphisms of the diagram -/

theorem links_cons (ss : List Nat) (l : GLayer) (ls : List GLayer) (b : Bool) (h : isWord l.box = false) (hb : isCup l.box = b) : morphs (l :: ls) = (b, l.left.length) :: morphs ls := by
  simp [morphs, List.filter_cons, h, hb]

theorem pregroup_cups : ∀ (ls : List GLayer) (a c : Ty) (n : Nat) (ss : List Nat), GDiagram.isPregroupLoop false ls = true → Diagram.Chain a ls c →
    InRange a.length (morphs ls) ∧ wiring ss n ls = links ss (morphs ls) := by
  intro ls
  induction ls with
  | nil => intro a c n ss _ _; exact ⟨trivial, rfl⟩
  | cons l ls ih =>
    intro a c n ss h hc
    obtain ⟨L, b, R⟩ := l
    obtain ⟨h1, h2⟩ := hc
    cases b with
    | cup x y r =>
      have hp : GDiagram.isPregroupLoop false ls = true := h
      have ha : a = L ++ [x, y] ++ R := h1.symm
      have hcod : Layer.cod (⟨L, .cup x y r, R⟩ : GLayer) = L ++ R := by
        show L ++ [] ++ R = L ++ R
        simp
      rw [hcod] at h2
      obtain ⟨i1, i2⟩ := ih (L ++ R) c n (ss.take L.length ++ ss.drop (L.length + 2)) hp h2
      rw [links_cons ss ⟨L, .cup x y r, R⟩ ls true rfl rfl]
      refine ⟨⟨by rw [ha]; simp, ?_⟩, ?_⟩
      · simp only [if_true]
        have : a.length - 2 = (L ++ R).length := by rw [ha]; simp; omega
        rw [this]; exact i1
      · simp only [wiring, links, i2]
    | swap x y =>
      have hp : GDiagram.isPregroupLoop false ls = true := h
      have ha : a = L ++ [x, y] ++ R := h1.symm
      have hcod : Layer.cod (⟨L, .swap x y, R⟩ : GLayer) = L ++ [y, x] ++ R := rfl
      rw [hcod] at h2
      obtain ⟨i1, i2⟩ := ih (L ++ [y, x] ++ R) c n (ss.take L.length ++ [ss.getD (L.length + 1) 0, ss.getD L.length 0] ++ ss.drop (L.length + 2)) hp h2
      rw [links_cons ss ⟨L, .swap x y, R⟩ ls false rfl rfl]
      refine ⟨⟨by rw [ha]; simp, ?_⟩, ?_⟩
      · simp only [Bool.false_eq_true, if_false]
        have : a.length = (L ++ [y, x] ++ R).length := by rw [ha]; simp
        rw [this]; exact i1
      · simp only [wiring, links, i2]
    | gen _ _ _ _ => simp [GDiagram.isPregroupLoop] at h
    | word _ _ _ => simp [GDiagram.isPregroupLoop] at h
    | cap _ _ _ => simp [GDiagram.isPregroupLoop] at h
    | spider _ _ _ => simp [GDiagram.isPregroupLoop] at h
    | daggered _ => simp [GDiagram.isPregroupLoop] at h

theorem range_snoc (a b : Nat) : List.range a ++ List.range' a b = List.range (a + b) := by
  rw [List.range_eq_range', List.range_eq_range', ← List.range'_append_1, Nat.zero_add]

theorem pregroup_words : ∀ (ls : List GLayer) (a c : Ty), GDiagram.isPregroupLoop true ls = true → Diagram.Chain a ls c →
    InRange (a.length + ((wordsOf (ls.map Layer.box)).map (fun w => w.2.length)).sum) (morphs ls) ∧
    wiring (List.range a.length) a.length ls = links (List.range (a.length + ((wordsOf (ls.map Layer.box)).map (fun w => w.2.length)).sum)) (morphs ls) := by
  intro ls
  induction ls with
  | nil => intro a c _ _; exact ⟨trivial, by simp [wiring, wordsOf, morphs, links]⟩
  | cons l ls ih =>
    intro a c h hc
    obtain ⟨L, b, R⟩ := l
    cases b with
    | word x t z =>
      obtain ⟨h1, h2⟩ := hc
      have hR : R = [] := by
        simp only [GDiagram.isPregroupLoop] at h
        split_ifs at h with hr
        simpa using hr
      subst hR
      have hp : GDiagram.isPregroupLoop true ls = true := h
      have ha : a = L := by
        have : L ++ [] ++ [] = a := h1
        simpa using this.symm
      subst ha
      have hcod : Layer.cod (⟨a, .word x t z, []⟩ : GLayer) = a ++ t := by
        show a ++ t ++ [] = a ++ t
        simp
      rw [hcod] at h2
      obtain ⟨i1, i2⟩ := ih (a ++ t) c hp h2
      have hm : morphs (⟨a, .word x t z, []⟩ :: ls) = morphs ls := by simp [morphs, isWord]
      rw [hm]
      have hsum : a.length + ((wordsOf ((⟨a, .word x t z, []⟩ :: ls : List GLayer).map Layer.box)).map (fun w => w.2.length)).sum = (a ++ t).length + ((wordsOf (ls.map Layer.box)).map (fun w => w.2.length)).sum := by
        simp [wordsOf]; omega
      rw [hsum]
      refine ⟨i1, ?_⟩
      rw [← i2]
      simp only [wiring]
      rw [List.take_of_length_le (by simp), List.drop_eq_nil_of_le (by simp), List.append_nil, range_snoc, List.length_append]
    | cup x y r =>
      have := pregroup_cups (⟨L, .cup x y r, R⟩ :: ls) a c a.length (List.range a.length) h hc
      simpa [wordsOf] using this
    | swap x y =>
      have := pregroup_cups (⟨L, .swap x y, R⟩ :: ls) a c a.length (List.range a.length) h hc
      simpa [wordsOf] using this
    | gen _ _ _ _ => simp [GDiagram.isPregroupLoop] at h
    | cap _ _ _ => simp [GDiagram.isPregroupLoop] at h
    | spider _ _ _ => simp [GDiagram.isPregroupLoop] at h
    | daggered _ => simp [GDiagram.isPregroupLoop] at h

/-! ### No row is wasted -/

theorem fits_none {a b : Nat} : ∀ {l : List Morph} {i : Nat}, fits a b i l = none → ∃ m ∈ l, m.start ≤ b ∧ a ≤ m.stop := by
  intro l
  induction l with
  | nil => intro i h; simp [fits] at h
  | cons m l ih =>
    intro i h
    unfold fits at h
    split_ifs at h with c1 c2
    · exact ⟨m, by simp, by omega, c2⟩
    · obtain ⟨n, hn, h⟩ := ih h
      exact ⟨n, by simp [hn], h⟩

theorem climb_stop {a b : Nat} : ∀ {ls : List (List Morph)} {i n j : Nat}, climb a b ls ls.length i = (n, j) → n ≤ ls.length ∧ (n = 0 ∨ ∃ m ∈ ls.reverse.getD (n - 1) [], m.start ≤ b ∧ a ≤ m.stop) := by
  intro ls
  induction ls with
  | nil =>
    intro i n j h
    simp only [climb, List.length_nil, Prod.mk.injEq] at h
    simp [h.1.symm]
  | cons l ls ih =>
    intro i n j h
    simp only [climb, List.length_cons, Nat.add_sub_cancel] at h
    cases hf : fits a b 0 l with
    | none =>
      rw [hf] at h
      simp only [Prod.mk.injEq] at h
      refine ⟨by simp [h.1.symm], .inr ?_⟩
      obtain ⟨m, hm, h3⟩ := fits_none hf
      refine ⟨m, ?_, h3⟩
      rw [← h.1]
      simpa [List.getD_eq_getElem?_getD] using hm
    | some k =>
      rw [hf] at h
      simp only at h
      obtain ⟨h1, h2⟩ := ih h
      refine ⟨by simp; omega, ?_⟩
      rcases h2 with h2 | ⟨m, hm, h3⟩
      · exact .inl h2
      · by_cases h0 : n = 0
        · exact .inl h0
        · refine .inr ⟨m, ?_, h3⟩
          rw [List.reverse_cons, List.getD_append _ _ _ _ (by simp; omega)]
          exact hm

theorem place_tight {layers : List (List Morph)} {m : Morph} (h : Tight layers) : Tight (place true layers m) := by
  unfold place
  simp only [if_true]
  generalize hq : climb m.start m.stop layers.reverse layers.length 0 = q
  obtain ⟨n, j⟩ := q
  rw [← List.length_reverse] at hq
  obtain ⟨h1, h2⟩ := climb_stop hq
  rw [List.reverse_reverse] at h2
  rw [List.length_reverse] at h1
  simp only
  split_ifs with hn
  · intro k x hx
    have mono : ∀ i y, y ∈ layers.getD i [] → y ∈ (layers.modify n (fun l => l.insertIdx j m)).getD i [] := by
      intro i y hy
      simp only [List.getD_eq_getElem?_getD, List.getElem?_modify] at hy ⊢
      cases hi : layers[i]? with
      | none => rw [hi] at hy; simp at hy
      | some l =>
        rw [hi] at hy
        simp only [Option.getD_some, Option.map_some] at hy ⊢
        split_ifs
        · by_cases hj : j ≤ l.length
          · exact (List.mem_insertIdx hj).2 (.inr hy)
          · show y ∈ l.insertIdx j m
            rw [List.insertIdx_of_length_lt (by omega)]; exact hy
        · exact hy
    have back : x ∈ layers.getD (k + 1) [] ∨ (x = m ∧ n = k + 1) := by
      simp only [List.getD_eq_getElem?_getD, List.getElem?_modify] at hx ⊢
      cases hi : layers[k + 1]? with
      | none => rw [hi] at hx; simp at hx
      | some l =>
        rw [hi] at hx
        simp only [Option.getD_some, Option.map_some] at hx ⊢
        split_ifs at hx with e
        · by_cases hj : j ≤ l.length
          · rcases (List.mem_insertIdx hj).1 hx with h | h
            · exact .inr ⟨h, e⟩
            · exact .inl h
          · change x ∈ l.insertIdx j m at hx
            rw [List.insertIdx_of_length_lt (by omega)] at hx; exact .inl hx
        · exact .inl hx
    rcases back with hx | ⟨rfl, e⟩
    · obtain ⟨m', hm', h3⟩ := h k x hx
      exact ⟨m', mono k m' hm', h3⟩
    · rcases h2 with h2 | ⟨m', hm', h3⟩
      · omega
      · rw [e, Nat.add_sub_cancel] at hm'
        exact ⟨m', mono k m' hm', h3.1, h3.2⟩
  · have hn' : n = layers.length := by omega
    intro k x hx
    by_cases hk : k + 1 < layers.length
    · rw [List.getD_append _ _ _ _ hk] at hx
      obtain ⟨m', hm', h3⟩ := h k x hx
      exact ⟨m', by rw [List.getD_append _ _ _ _ (by omega)]; exact hm', h3⟩
    · rw [List.getD_append_right _ _ _ _ (by omega)] at hx
      have hk2 : k + 1 = layers.length := by
        by_contra hne
        rw [List.getD_eq_default _ _ (by simp; omega)] at hx
        simp at hx
      rw [hk2, Nat.sub_self] at hx
      have hx' : x = m := by simpa using hx
      subst hx'
      rcases h2 with h2 | ⟨m', hm', h3⟩
      · omega
      · refine ⟨m', ?_, h3⟩
        rw [List.getD_append _ _ _ _ (by omega)]
        have : n - 1 = k := by omega
        rw [← this]; exact hm'

theorem placeAll_tight : ∀ (bs : List (Bool × Nat)) (layers : List (List Morph)) (scan : List Nat), Tight layers → Tight (placeAll true layers scan bs) := by
  intro bs
  induction bs with
  | nil => intro layers scan h; exact h
  | cons b bs ih => intro layers scan h; exact ih _ _ (place_tight h)

theorem placeAll_off : ∀ (bs : List (Bool × Nat)) (layers : List (List Morph)) (scan : List Nat), placeAll false layers scan bs = layers ++ (colMorphs scan bs).map (fun m => [m]) := by
  intro bs
  induction bs with
  | nil => intro layers scan; simp [placeAll, colMorphs]
  | cons b bs ih => intro layers scan; simp [placeAll, colMorphs, ih, place]

end TextPrint
end Lambeq
