import Verif.Drawing.PictureTheorems

/-!
# Heights in a layout, and pictures with all labels (C117)
-/

namespace Lambeq
namespace Draw
open Tikz
set_option linter.unusedSectionVars false
set_option linter.unusedSimpArgs false
set_option linter.unusedVariables false
variable {O B : Type} [BoxSig B O]

/-- Inputs are above everything else; boxes are at whole heights, and ends at quarters. -/
structure Level (n : Nat) (s : ℚ) (D : Drawable O B) : Prop where
  ends : ∀ i e, D.ends[i]? = some e → (e.kind = .input ∧ i < n ∧ e.y = s + 1) ∨ (e.kind ≠ .input ∧ ∃ k : ℤ, k ≤ 1 ∧ e.y = s + k / 4)
  boxes : ∀ b ∈ D.boxes, ∃ k : ℤ, k ≤ 0 ∧ b.y = s + k

theorem Level.mapX {n : Nat} {s : ℚ} {D : Drawable O B} (h : Level n s D) (φ : ℚ → ℚ) : Level n s (D.mapX φ) := by
  constructor
  · intro i e he
    simp only [Drawable.mapX, List.getElem?_map, Option.map_eq_some_iff] at he
    obtain ⟨e', he', rfl⟩ := he
    exact h.ends i e' he'
  · intro b hb
    simp only [Drawable.mapX, List.mem_map] at hb
    obtain ⟨c, hc, rfl⟩ := hb
    exact h.boxes c hc

theorem Level.append {n : Nat} {s : ℚ} {D : Drawable O B} (h : Level n s D) (bs : List (BoxNode B)) (es : List (WireEnd O)) (ws : List (Nat × Nat))
    (hb : ∀ b ∈ bs, ∃ k : ℤ, k ≤ 0 ∧ b.y = s + k) (he : ∀ e ∈ es, e.kind ≠ .input ∧ ∃ k : ℤ, k ≤ 1 ∧ e.y = s + k / 4) :
    Level n s ⟨D.boxes ++ bs, D.ends ++ es, ws⟩ := by
  constructor
  · intro i e hi
    simp only at hi
    rw [List.getElem?_append] at hi
    split at hi
    · exact h.ends i e hi
    · exact .inr (he e (List.mem_of_getElem? hi))
  · intro b h'
    rcases List.mem_append.1 h' with h' | h'
    · exact h.boxes b h'
    · exact hb b h'

theorem fallY_level (D : Drawable O B) (l r : ℚ) (bs : List (BoxNode B)) (h : ∀ b ∈ bs, ∃ k : ℤ, k ≤ 0 ∧ b.y = 0 + (k : ℚ)) :
    ∃ k : ℤ, k ≤ 0 ∧ fallY D l r bs = k := by
  rw [fallY]
  have : ∀ y0 : ℚ, (∃ k : ℤ, k ≤ 0 ∧ y0 = k) →
      ∃ k : ℤ, k ≤ 0 ∧ bs.foldl (fun y b => if (D.xLims b).1 > r ∨ (D.xLims b).2 < l then y else min y (b.y - 1)) y0 = k := by
    induction bs with
    | nil => intro y0 h0; exact h0
    | cons b bs ih =>
      intro y0 h0
      refine ih (fun c hc => h c (List.mem_cons_of_mem _ hc)) _ ?_
      obtain ⟨k, hk, hy⟩ := h b (by simp)
      obtain ⟨k0, hk0, rfl⟩ := h0
      beta_reduce
      split
      · exact ⟨k0, hk0, rfl⟩
      · refine ⟨min k0 (k - 1), le_trans (min_le_left _ _) hk0, ?_⟩
        rw [hy]
        push_cast
        rw [zero_add]
  exact this 0 ⟨0, le_refl _, by simp⟩

theorem makeSpace_level {n : Nat} {D : Drawable O B} (h : Level n 0 D) (scan : List Nat) (m c off : Nat) :
    Level n 0 (makeSpace D scan m c off).1 ∧ ∃ k : ℤ, k ≤ 0 ∧ (makeSpace D scan m c off).2.2 = k := by
  rw [makeSpace]
  split
  · exact ⟨h, 0, le_refl _, by simp⟩
  · have h1 : ∀ x, Level n 0 (roomLeft D scan c off x) := by
      intro x
      rw [roomLeft]
      split
      · exact h.mapX _
      · exact h
    have h2 : ∀ x, Level n 0 (roomRight (roomLeft D scan c off x) scan m c off x) := by
      intro x
      rw [roomRight]
      split
      · exact (h1 x).mapX _
      · exact h1 x
    exact ⟨h2 _, fallY_level _ _ _ _ (h2 _).boxes⟩

theorem addBox_level {n : Nat} {D : Drawable O B} (h : Level n 0 D) (scan : List Nat) (keep : B → Bool) (box : B) (off : Nat) (x : ℚ) (k : ℤ) (hk : k ≤ 0) :
    Level n 0 (addBox D scan keep box off x k).1 := by
  rw [addBox]
  simp only [List.append_assoc]
  refine h.append _ _ _ ?_ ?_
  · intro b hb
    rw [List.mem_singleton] at hb
    subst hb
    exact ⟨k, hk, by simp⟩
  · intro e he
    rcases List.mem_append.1 he with he | he
    · obtain ⟨p, _, rfl⟩ := List.mem_map.1 he
      refine ⟨by simp, 4 * k + 1, by omega, ?_⟩
      simp only [halfHeight]
      push_cast
      ring
    · obtain ⟨p, _, rfl⟩ := List.mem_map.1 he
      refine ⟨by simp, 4 * k - 1, by omega, ?_⟩
      simp only [halfHeight]
      push_cast
      ring

theorem drawBoxes_level {n : Nat} (keep : B → Bool) (fol : Bool) (ls : List (Layer O B)) :
    ∀ (depth : Nat) (D : Drawable O B) (scan : List Nat) (m : ℤ), m ≤ 1 → Level n 0 D →
      Level n 0 (drawBoxes keep fol depth D scan m ls).1 ∧ ∃ k : ℤ, k ≤ 1 ∧ (drawBoxes keep fol depth D scan m ls).2.2 = k := by
  induction ls with
  | nil => intro depth D scan m hm h; exact ⟨h, m, hm, rfl⟩
  | cons l ls ih =>
    intro depth D scan m hm h
    rw [drawBoxes]
    obtain ⟨h1, k, hk, hy⟩ := makeSpace_level h scan (BoxSig.dom l.box).length (BoxSig.cod l.box).length l.left.length
    obtain ⟨k', hk', hy', hD⟩ : ∃ k' : ℤ, k' ≤ 0 ∧ (drawBox keep fol depth D scan l).2.2 = k' ∧ Level n 0 (drawBox keep fol depth D scan l).1 := by
      rw [drawBox]
      cases fol with
      | false =>
        refine ⟨k, hk, by simpa using hy, ?_⟩
        simp only [Bool.false_eq_true, if_false]
        rw [hy]
        exact addBox_level h1 scan keep l.box _ _ k hk
      | true =>
        refine ⟨-(depth : ℤ), by omega, by simp, ?_⟩
        simp only [if_true]
        have := addBox_level h1 scan keep l.box l.left.length
          (makeSpace D scan (BoxSig.dom l.box).length (BoxSig.cod l.box).length l.left.length).2.1 (-(depth : ℤ)) (by omega)
        simpa using this
    rw [hy']
    have := ih (depth + 1) _ (drawBox keep fol depth D scan l).2.1 (min m k') (le_trans (min_le_left _ _) hm) hD
    simpa using this

variable {keep : B → Bool} {fol : Bool} {d : Diagram O B}

/-- C117: the inputs are drawn at one height, everything else is below; boxes have whole distances from there, and ends quarters. -/
theorem C117_levels {D : Drawable O B} (h : fromDiagram keep fol d = .ok D) : ∃ top : ℚ,
    (∀ i e, D.ends[i]? = some e → (e.kind = .input ∧ i < d.dom.length ∧ e.y = top) ∨ (e.kind ≠ .input ∧ ∃ k : Nat, 3 ≤ k ∧ e.y = top - k / 4)) ∧
    ∀ b ∈ D.boxes, ∃ k : Nat, 1 ≤ k ∧ b.y = top - k := by
  obtain ⟨s, L⟩ : ∃ s, Level d.dom.length s D := by
    rw [fromDiagram] at h
    have h0 : Level d.dom.length 0 (⟨[], inputs d.dom, []⟩ : Drawable O B) := by
      constructor
      · intro i e he
        have hi : i < d.dom.length := by
          have := (List.getElem?_eq_some_iff.1 he).1
          simpa [inputs] using this
        obtain ⟨p, _, rfl⟩ := List.mem_map.1 (List.mem_of_getElem? he)
        exact .inl ⟨rfl, hi, by simp⟩
      · intro b hb
        cases hb
    obtain ⟨h1, k, hk, hy⟩ := drawBoxes_level keep fol d.layers 0 _ (List.range d.dom.length) 1 (le_refl _) h0
    rw [Int.cast_one] at h1 hy
    rw [hy] at h
    generalize (drawBoxes keep fol 0 (⟨[], inputs d.dom, []⟩ : Drawable O B) (List.range d.dom.length) 1 d.layers).1 = E at h h1
    generalize (drawBoxes keep fol 0 (⟨[], inputs d.dom, []⟩ : Drawable O B) (List.range d.dom.length) 1 d.layers).2.1 = scan at h
    have h2 : Level d.dom.length 0 (addOutputs E scan k d.cod) := by
      have := h1.append [] ((d.cod.zip scan).map (fun p => (⟨.output, p.1, E.xAt p.2, (k : ℚ) - 1⟩ : WireEnd O)))
        (E.wires ++ scan.zip (List.range' E.ends.length d.cod.length)) (by simp) ?_
      · simpa [addOutputs] using this
      · intro e he
        obtain ⟨p, _, rfl⟩ := List.mem_map.1 he
        refine ⟨by simp, 4 * (k - 1), by omega, ?_⟩
        push_cast
        ring
    rw [moveToOrigin] at h
    split at h
    · cases h
    · injection h with h
      subst h
      generalize (minOf (addOutputs E scan k d.cod).ys + maxOf (addOutputs E scan k d.cod).ys) / 2 = t
      refine ⟨-t, ?_, ?_⟩
      · intro i e he
        simp only [Drawable.translate, List.getElem?_map, Option.map_eq_some_iff] at he
        obtain ⟨e', he', rfl⟩ := he
        rcases h2.ends i e' he' with ⟨a, b, c⟩ | ⟨a, j, b, c⟩
        · exact .inl ⟨a, b, by simp only [c]; ring⟩
        · exact .inr ⟨a, j, b, by simp only [c]; ring⟩
      · intro b hb
        simp only [Drawable.translate, List.mem_map] at hb
        obtain ⟨c, hc, rfl⟩ := hb
        obtain ⟨j, hj, e⟩ := h2.boxes c hc
        exact ⟨j, hj, by simp only [e]; ring⟩
  refine ⟨s + 1, ?_, ?_⟩
  · intro i e he
    rcases L.ends i e he with h | ⟨h1, k, hk, h2⟩
    · exact .inl h
    · refine .inr ⟨h1, (4 - k).toNat, by omega, ?_⟩
      have : (((4 - k).toNat : ℤ) : ℚ) = ((4 - k : ℤ) : ℚ) := by rw [Int.toNat_of_nonneg (by omega)]
      rw [Int.cast_natCast] at this
      rw [this, h2]
      push_cast
      ring
  · intro b hb
    obtain ⟨k, hk, h2⟩ := L.boxes b hb
    refine ⟨(1 - k).toNat, by omega, ?_⟩
    have : (((1 - k).toNat : ℤ) : ℚ) = ((1 - k : ℤ) : ℚ) := by rw [Int.toNat_of_nonneg (by omega)]
    rw [Int.cast_natCast] at this
    rw [this, h2]
    push_cast
    ring

/-- A wire of the picture ends in the middle of a box, or at an end of the layout. -/
theorem place_of_wire (w : d.WT) (o : Options) (look : B → Look) (showTy : O → String) {D : Drawable O B} (hD : fromDiagram keep fol d = .ok D)
    {x : ℚ × ℚ} (hw : x ∈ wirePlaces (commands o look showTy D)) :
    (∃ b ∈ D.boxes, x = (b.x, b.y)) ∨ ∃ (i : Nat) (e : WireEnd O), D.ends[i]? = some e ∧ x = (e.x, e.y) := by
  have G := (fromDiagram_good w hD).1
  have hpl : ∀ i, i < D.ends.length → ∃ (i' : Nat) (e : WireEnd O), D.ends[i']? = some e ∧ D.place i = (e.x, e.y) := by
    intro i hi
    refine ⟨i, D.ends[i], List.getElem?_eq_getElem hi, ?_⟩
    simp [Drawable.place, Drawable.xAt, Drawable.yAt, List.getElem?_eq_getElem hi]
  rw [wirePlaces, drawn_commands, expected, List.flatMap_append, List.flatMap_append, List.mem_append, List.mem_append] at hw
  rcases hw with (hw | hw) | hw
  · obtain ⟨s, hs, hsx⟩ := List.mem_flatMap.1 hw
    obtain ⟨c, _, hc⟩ := List.mem_filterMap.1 hs
    split at hc
    · injection hc with hc
      subst hc
      cases hsx
    · cases hc
  · obtain ⟨s, hs, hsx⟩ := List.mem_flatMap.1 hw
    obtain ⟨e, he, rfl⟩ := List.mem_map.1 hs
    simp only [List.mem_cons, List.not_mem_nil, or_false] at hsx
    rcases hsx with rfl | rfl
    · exact .inr (hpl _ (G.wire_lt e he).1)
    · exact .inr (hpl _ (G.wire_lt e he).2)
  · obtain ⟨s, hs, hsx⟩ := List.mem_flatMap.1 hw
    obtain ⟨c, hc, hcs⟩ := List.mem_flatMap.1 hs
    have hcs' : s ∈ c.cod.map (fun i => Shape.wire (c.x, c.y) (D.place i)) ++ c.dom.map (fun i => Shape.wire (D.place i) (c.x, c.y)) := by
      split at hcs
      · cases hcs
      · exact hcs
    rcases List.mem_append.1 hcs' with hs | hs
    · obtain ⟨i, hi, rfl⟩ := List.mem_map.1 hs
      simp only [List.mem_cons, List.not_mem_nil, or_false] at hsx
      rcases hsx with rfl | rfl
      · exact .inl ⟨c, hc, rfl⟩
      · exact .inr (hpl _ (G.box_lt c hc i (List.mem_append_right _ hi)))
    · obtain ⟨i, hi, rfl⟩ := List.mem_map.1 hs
      simp only [List.mem_cons, List.not_mem_nil, or_false] at hsx
      rcases hsx with rfl | rfl
      · exact .inr (hpl _ (G.box_lt c hc i (List.mem_append_left _ hi)))
      · exact .inl ⟨c, hc, rfl⟩

/-- A text of the picture is the name of a plain box, in its middle, or a type, next to an input or below the codomain of a box. -/
theorem place_of_label (o : Options) (look : B → Look) (showTy : O → String) (D : Drawable O B) {x : ℚ × ℚ} (hx : x ∈ labelPlaces (commands o look showTy D)) :
    (∃ b ∈ D.boxes, (∃ n c g, look b.obj = .plain n c g) ∧ x = (b.x, b.y)) ∨
    (∃ (i : Nat) (e : WireEnd O), D.ends[i]? = some e ∧ e.kind = .input ∧ x = (e.x + o.textpad.1, e.y)) ∨
    (∃ (i : Nat) (e : WireEnd O), D.ends[i]? = some e ∧ e.kind = .cod ∧ x = (e.x + o.textpad.1, e.y - o.textpad.2)) := by
  rw [labelPlaces, List.mem_filterMap] at hx
  obtain ⟨c, hc, hcx⟩ := hx
  rw [commands, List.mem_append, List.mem_append] at hc
  rcases hc with (hc | hc) | hc
  · obtain ⟨b, hb, hbc⟩ := List.mem_flatMap.1 hc
    rw [boxCmds] at hbc
    split at hbc
    · next n cj g hl =>
      refine .inl ⟨b, hb, ⟨n, cj, g, hl⟩, ?_⟩
      rcases List.mem_cons.1 hbc with rfl | hbc
      · cases hcx
      · split at hbc
        · rw [List.mem_singleton] at hbc
          subst hbc
          injection hcx with hcx
          exact hcx.symm
        · cases hbc
    · cases hbc
  · obtain ⟨v, _, hv⟩ := List.mem_flatMap.1 hc
    rw [wireCmds] at hv
    rcases List.mem_cons.1 hv with rfl | hv
    · cases hcx
    · split at hv
      · next e he =>
        split at hv
        · next hk =>
          rw [List.mem_singleton] at hv
          subst hv
          injection hcx with hcx
          rcases hk.2 with hk | hk
          · exact .inr (.inl ⟨_, e, he, hk, by rw [← hcx]; simp [hk]⟩)
          · exact .inr (.inr ⟨_, e, he, hk, by rw [← hcx]; simp [hk]⟩)
        · cases hv
      · cases hv
  · rw [List.mem_singleton] at hc
    subst hc
    cases hcx

/-- C117, partial: with all names and types, and with a textpad like the default that does not reach the next input or the next height of ends, the picture is
valid TikZ if every layer but the first has a wire above it (or `foliated=True`): all nodes are declared before the lines that refer to them. -/
theorem C117_texts_partial (st : Style ℚ) (o : Options) (look : B → Look) (showTy : O → String) (w : d.WT) (ho : o.scale = (1, 1) ∧ o.pad = (0, 0))
    (ht : (0 < o.textpad.1 ∧ o.textpad.1 < 5 / 2) ∧ 0 < o.textpad.2 ∧ o.textpad.2 < 1 / 4) (hn : fol = true ∨ ∀ l ∈ d.layers.tail, l.dom ≠ [])
    {p : Pic ℚ} (h : drawTikz st o look showTy keep fol d = .ok p) (baseline : ℚ × ℚ) : DeclaredBefore (output baseline p) := by
  obtain ⟨D, hD⟩ : ∃ D, fromDiagram keep fol d = .ok D := by
    cases hD : fromDiagram keep fol d with
    | ok D => exact ⟨D, rfl⟩
    | error e => rw [drawTikz, hD] at h; cases h
  rw [drawTikz_eq st o look showTy w ho hD] at h
  refine C116_order_partial st _ p baseline h ?_
  obtain ⟨top, hE, hB⟩ := C117_levels hD
  intro x hx hw
  rcases place_of_label o look showTy D hx with ⟨b, hb, hlb, rfl⟩ | ⟨i, e, he, hk, rfl⟩ | ⟨i, e, he, hk, rfl⟩
  · exact names_clear o look showTy w hn hD b hb hlb hw
  · rcases hE i e he with ⟨_, hi, hy⟩ | ⟨hk', _⟩
    · rcases place_of_wire w o look showTy hD hw with ⟨b, hb, hx⟩ | ⟨j, f, hf, hx⟩
      · injection hx with _ hx
        obtain ⟨k, hk, hb⟩ := hB b hb
        have : (1 : ℚ) ≤ k := by exact_mod_cast hk
        linarith
      · injection hx with hx1 hx2
        rcases hE j f hf with ⟨_, hj, hy'⟩ | ⟨_, k, hk, hy'⟩
        · have hg := (C96_order w hD).1
          have hxe : D.xAt i = e.x := by simp [Drawable.xAt, he]
          have hxf : D.xAt j = f.x := by simp [Drawable.xAt, hf]
          rw [List.pairwise_map] at hg
          rcases Nat.lt_trichotomy i j with hij | rfl | hij
          · have := List.pairwise_iff_getElem.1 hg i j (by simpa using hi) (by simpa using hj) hij
            simp only [List.getElem_range] at this
            linarith [ht.1.2]
          · linarith [ht.1.1]
          · have := List.pairwise_iff_getElem.1 hg j i (by simpa using hj) (by simpa using hi) hij
            simp only [List.getElem_range] at this
            linarith [ht.1.1]
        · have : (3 : ℚ) ≤ k := by exact_mod_cast hk
          linarith
    · exact hk' hk
  · rcases hE i e he with ⟨hk', _⟩ | ⟨_, k, _, hy⟩
    · rw [hk] at hk'
      cases hk'
    · obtain ⟨m, hm⟩ : ∃ m : ℤ, e.y - o.textpad.2 = top - m / 4 := by
        rcases place_of_wire w o look showTy hD hw with ⟨b, hb, hx⟩ | ⟨j, f, hf, hx⟩
        · injection hx with _ hx
          obtain ⟨m, _, hb⟩ := hB b hb
          refine ⟨4 * m, ?_⟩
          push_cast
          linarith
        · injection hx with _ hx
          rcases hE j f hf with ⟨_, _, hy'⟩ | ⟨_, m, _, hy'⟩
          · refine ⟨0, ?_⟩
            push_cast
            linarith
          · refine ⟨m, ?_⟩
            push_cast
            linarith
      have h1 : ((k : ℤ) : ℚ) < m := by push_cast; linarith [ht.2.1]
      have h2 : (m : ℚ) < ((k + 1 : ℤ) : ℚ) := by push_cast; linarith [ht.2.2]
      have h3 : (k : ℤ) < m := by exact_mod_cast h1
      have h4 : m < (k : ℤ) + 1 := by exact_mod_cast h2
      omega

/-- The concrete diagram, with the default arguments: there are texts, and the picture is valid. -/
example : forked.WT ∧ (∀ l ∈ forked.layers.tail, l.dom ≠ []) ∧
    ((0 < ({} : Options).textpad.1 ∧ ({} : Options).textpad.1 < 5 / 2) ∧ 0 < ({} : Options).textpad.2 ∧ ({} : Options).textpad.2 < 1 / 4) ∧
    ∃ p, drawTikz plainStyle {} toyLook (fun _ => "n") (fun _ => false) false forked = .ok p ∧ DeclaredBefore (output (0, 0) p) := by
  refine ⟨forked_wt, by simp [forked, Layer.dom, BoxSig.dom], by norm_num, ?_⟩
  obtain ⟨_, p, _, hp, _⟩ := C117_picture (keep := fun _ => false) (fol := false) plainStyle {} toyLook (fun _ => "n") forked_wt ⟨rfl, rfl⟩ (by simp [forked])
  exact ⟨p, hp, C117_texts_partial plainStyle {} toyLook (fun _ => "n") forked_wt ⟨rfl, rfl⟩ (by norm_num)
    (.inr (by simp [forked, Layer.dom, BoxSig.dom])) hp (0, 0)⟩

end Draw
end Lambeq
