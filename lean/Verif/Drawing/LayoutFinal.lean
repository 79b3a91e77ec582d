import Verif.Drawing.LayoutTheorems

namespace Lambeq
namespace Draw
variable {O B : Type} [BoxSig B O]
set_option linter.unusedSectionVars false
set_option linter.unusedSimpArgs false

/-! ## One box -/

theorem length_mapX {φ : ℚ → ℚ} {D : Drawable O B} : (D.mapX φ).ends.length = D.ends.length := by simp [Drawable.mapX]

/-- Every box is either apart from the new one or higher. -/
theorem makeSpace_y {D : Drawable O B} {L M R : List Nat} (I : Inv D (L ++ M ++ R)) (n : Nat) (keep : Bool) :
    (makeSpace D (L ++ M ++ R) M.length n L.length).2.2 ≤ 0 ∧ (L ++ M ++ R ≠ [] →
      ∀ b ∈ (makeSpace D (L ++ M ++ R) M.length n L.length).1.boxes,
        Apart ((makeSpace D (L ++ M ++ R) M.length n L.length).1.points b)
          (newPoints (makeSpace D (L ++ M ++ R) M.length n L.length).1 M keep n (makeSpace D (L ++ M ++ R) M.length n L.length).2.1) ∨
        (makeSpace D (L ++ M ++ R) M.length n L.length).2.2 + 1 ≤ b.y) := by
  obtain ⟨⟨φ, hφ, e⟩, _⟩ := makeSpace_spec I n
  have I' := I.mapX hφ
  rw [← e] at I'
  have S := I'.split
  have E := newPoints_edges S (n := n) (x := (makeSpace D (L ++ M ++ R) M.length n L.length).2.1) keep
  refine ⟨?_, ?_⟩
  · unfold makeSpace
    split_ifs with h
    · exact le_refl _
    · exact (fallY_le _ 0).1
  · intro h b hb
    have hy : (makeSpace D (L ++ M ++ R) M.length n L.length).2.2 = fallY (makeSpace D (L ++ M ++ R) M.length n L.length).1
        (leftEdge (makeSpace D (L ++ M ++ R) M.length n L.length).1 (L ++ M ++ R) M.length n L.length (makeSpace D (L ++ M ++ R) M.length n L.length).2.1)
        (rightEdge (makeSpace D (L ++ M ++ R) M.length n L.length).1 (L ++ M ++ R) M.length n L.length (makeSpace D (L ++ M ++ R) M.length n L.length).2.1)
        (makeSpace D (L ++ M ++ R) M.length n L.length).1.boxes := by
      simp only [makeSpace, if_neg h]
    rw [hy]
    rcases (fallY_le (D := (makeSpace D (L ++ M ++ R) M.length n L.length).1)
        (l := leftEdge (makeSpace D (L ++ M ++ R) M.length n L.length).1 (L ++ M ++ R) M.length n L.length (makeSpace D (L ++ M ++ R) M.length n L.length).2.1)
        (r := rightEdge (makeSpace D (L ++ M ++ R) M.length n L.length).1 (L ++ M ++ R) M.length n L.length (makeSpace D (L ++ M ++ R) M.length n L.length).2.1)
        (makeSpace D (L ++ M ++ R) M.length n L.length).1.boxes 0).2 b hb with h1 | h1 | h1
    · exact .inl (apart_of_edges E (.inl h1))
    · exact .inl (apart_of_edges E (.inr h1))
    · right; unfold fallY; linarith

/-- The scan below a layer. -/
theorem split_scan {scan : List Nat} {l : Layer O B} (h : scan.length = l.dom.length) : ∃ L M R, scan = L ++ M ++ R ∧ L.length = l.left.length ∧
    M.length = (BoxSig.dom l.box).length ∧ R.length = l.right.length := by
  have h' : scan.length = l.left.length + (BoxSig.dom l.box).length + l.right.length := by
    rw [h]; simp [Layer.dom]; try omega
  refine ⟨scan.take l.left.length, (scan.drop l.left.length).take (BoxSig.dom l.box).length, (scan.drop l.left.length).drop (BoxSig.dom l.box).length, ?_, ?_, ?_, ?_⟩
  · rw [List.append_assoc, List.take_append_drop, List.take_append_drop]
  · simp; omega
  · simp; omega
  · simp; omega

structure Step (D D' : Drawable O B) (scan scan' : List Nat) (minY y : ℚ) (l : Layer O B) : Prop where
  inv : Inv D' scan'
  len : scan'.length = l.cod.length
  grow : D.ends.length ≤ D'.ends.length
  gaps : ∀ is : List Nat, (∀ i ∈ is, i < D.ends.length) → Gapped (is.map D.xAt) → Gapped (is.map D'.xAt)
  ys : D'.boxes.map BoxNode.y = D.boxes.map BoxNode.y ++ [y]

theorem drawBox_step {keep : B → Bool} {fol : Bool} {depth : Nat} {D : Drawable O B} {scan : List Nat} {l : Layer O B} (I : Inv D scan)
    (h : scan.length = l.dom.length) (hf : fol = true → ∀ b ∈ D.boxes, -(depth : ℚ) + 1 ≤ b.y) (minY : ℚ) :
    Step D (drawBox keep fol depth D scan l).1 scan (drawBox keep fol depth D scan l).2.1 minY (drawBox keep fol depth D scan l).2.2 l ∧
    (fol = true → (drawBox keep fol depth D scan l).2.2 = -(depth : ℚ)) ∧
    (Free D scan → (fol = true ∨ scan ≠ [] ∨ D.boxes = []) → Free (drawBox keep fol depth D scan l).1 (drawBox keep fol depth D scan l).2.1) := by
  obtain ⟨L, M, R, rfl, hL, hM, hR⟩ := split_scan h
  obtain ⟨⟨φ, hφ, e⟩, F⟩ := makeSpace_spec I (BoxSig.cod l.box).length
  obtain ⟨hy0, hy1⟩ := makeSpace_y I (BoxSig.cod l.box).length (keep l.box)
  simp only [drawBox, ← hL, ← hM]
  generalize hs : makeSpace D (L ++ M ++ R) M.length (BoxSig.cod l.box).length L.length = s at *
  have I' : Inv s.1 (L ++ M ++ R) := by rw [e]; exact I.mapX hφ
  have hboxes : s.1.boxes.map BoxNode.y = D.boxes.map BoxNode.y := by rw [e]; simp [Drawable.mapX, Function.comp_def]
  have hfol : fol = true → ∀ b ∈ s.1.boxes, -(depth : ℚ) + 1 ≤ b.y := by
    intro hfol b hb
    rw [e] at hb
    obtain ⟨c, hc, rfl⟩ := mem_mapX.1 hb
    exact hf hfol c hc
  generalize hy : (if fol = true then -(depth : ℚ) else s.2.2) = y
  have yle : y ≤ 0 := by
    rw [← hy]
    split_ifs
    · have : (0 : ℚ) ≤ depth := Nat.cast_nonneg _
      linarith
    · exact hy0
  have placed : fol = true ∨ L ++ M ++ R ≠ [] ∨ D.boxes = [] → ∀ b ∈ s.1.boxes, Apart (s.1.points b) (newPoints s.1 M (keep l.box) (BoxSig.cod l.box).length s.2.1) ∨ y + 1 ≤ b.y := by
    intro hc b hb
    by_cases hfl : fol = true
    · rw [if_pos hfl] at hy
      right
      rw [← hy]; exact hfol hfl b hb
    · rw [if_neg hfl] at hy
      rw [← hy]
      rcases hc with hc | hc | hc
      · exact absurd hc hfl
      · exact hy1 hc b hb
      · rw [e] at hb
        simp [Drawable.mapX, hc] at hb
  refine ⟨⟨?_, ?_, ?_, ?_, ?_⟩, ?_, ?_⟩
  · exact addBox_inv I' hM.symm F yle (fun hne b hb => placed (.inr (.inl (by simp [hne]))) b hb)
  · rw [scan_new hM.symm]
    simp [Layer.cod, hL, hR]; try omega
  · rw [ends_length hM.symm, e, length_mapX]; omega
  · intro is his hg
    have h1 : ∀ i ∈ is, i < s.1.ends.length := by rw [e, length_mapX]; exact his
    rw [List.map_congr_left (fun i hi => xAt_old (h1 i hi)), e, map_xAt_mapX his]
    exact hg.map hφ
  · rw [boxes_new hM.symm, List.map_append, hboxes]; rfl
  · intro hfl
    rw [← hy, if_pos hfl]
  · intro C hc
    have C' : Free s.1 (L ++ M ++ R) := by rw [e]; exact C.mapX hφ I
    exact addBox_free I' C' hM.symm F (placed hc)

/-! ## All boxes -/

/-- No wires at a layer after the first. -/
def NoBreak (fol : Bool) (fresh : Prop) (ls : List (Layer O B)) : Prop :=
  fol = true ∨ ((fresh ∨ ∀ l ∈ ls.head?, l.dom ≠ []) ∧ ∀ l ∈ ls.tail, l.dom ≠ [])

theorem drawBoxes_spec {keep : B → Bool} {fol : Bool} : ∀ (ls : List (Layer O B)) (a c : List O) (depth : Nat) (D : Drawable O B) (scan : List Nat) (minY : ℚ),
    Diagram.Chain a ls c → scan.length = a.length → Inv D scan → (fol = true → ∀ b ∈ D.boxes, -(depth : ℚ) + 1 ≤ b.y) →
    minY ≤ 1 → (∀ b ∈ D.boxes, minY ≤ b.y) →
    Inv (drawBoxes keep fol depth D scan minY ls).1 (drawBoxes keep fol depth D scan minY ls).2.1 ∧
    (drawBoxes keep fol depth D scan minY ls).2.1.length = c.length ∧
    D.ends.length ≤ (drawBoxes keep fol depth D scan minY ls).1.ends.length ∧
    (∀ is : List Nat, (∀ i ∈ is, i < D.ends.length) → Gapped (is.map D.xAt) → Gapped (is.map (drawBoxes keep fol depth D scan minY ls).1.xAt)) ∧
    ((drawBoxes keep fol depth D scan minY ls).2.2 ≤ 1 ∧ ∀ b ∈ (drawBoxes keep fol depth D scan minY ls).1.boxes, (drawBoxes keep fol depth D scan minY ls).2.2 ≤ b.y) ∧
    (fol = true → (drawBoxes keep fol depth D scan minY ls).1.boxes.map BoxNode.y = D.boxes.map BoxNode.y ++ (List.range' depth ls.length).map (fun k : Nat => -(k : ℚ))) ∧
    (Free D scan → NoBreak fol (D.boxes = []) ls → Free (drawBoxes keep fol depth D scan minY ls).1 (drawBoxes keep fol depth D scan minY ls).2.1) := by
  intro ls
  induction ls with
  | nil =>
    intro a c depth D scan minY hch hl I hf h1 hb
    have : a = c := hch
    subst this
    simp only [drawBoxes]
    exact ⟨I, hl, le_refl _, fun _ _ h => h, ⟨h1, hb⟩, by simp, fun C _ => C⟩
  | cons l ls ih =>
    intro a c depth D scan minY hch hl I hf h1 hb
    obtain ⟨rfl, hch⟩ := hch
    obtain ⟨st, hfy, hfree⟩ := drawBox_step (keep := keep) (fol := fol) (depth := depth) I hl hf minY
    simp only [drawBoxes]
    generalize hr : drawBox keep fol depth D scan l = r at *
    have hmem : ∀ b ∈ r.1.boxes, b.y ∈ D.boxes.map BoxNode.y ++ [r.2.2] := by
      intro b hb'
      rw [← st.ys]; exact List.mem_map_of_mem hb'
    have hf' : fol = true → ∀ b ∈ r.1.boxes, -((depth + 1 : Nat) : ℚ) + 1 ≤ b.y := by
      intro hfl b hb'
      push_cast
      rcases List.mem_append.1 (hmem b hb') with h | h
      · obtain ⟨c', hc', h⟩ := List.mem_map.1 h
        have := hf hfl c' hc'
        linarith
      · rw [List.mem_singleton.1 h, hfy hfl]; linarith
    have hb' : ∀ b ∈ r.1.boxes, min minY r.2.2 ≤ b.y := by
      intro b hb'
      rcases List.mem_append.1 (hmem b hb') with h | h
      · obtain ⟨c', hc', h⟩ := List.mem_map.1 h
        have h2 := hb c' hc'
        have h3 := min_le_left minY r.2.2
        linarith
      · rw [List.mem_singleton.1 h]; exact min_le_right _ _
    obtain ⟨J1, J2, J3, J4, J5, J6, J7⟩ := ih l.cod c (depth + 1) r.1 r.2.1 (min minY r.2.2) hch st.len st.inv hf' (le_trans (min_le_left _ _) h1) hb'
    refine ⟨J1, J2, le_trans st.grow J3, ?_, J5, ?_, ?_⟩
    · intro is his hg
      exact J4 is (fun i hi => lt_of_lt_of_le (his i hi) st.grow) (st.gaps is his hg)
    · intro hfl
      rw [J6 hfl, st.ys, hfy hfl]
      simp [List.range'_succ]
    · intro C hn
      have hne : l.dom ≠ [] → scan ≠ [] := by
        rintro h rfl
        exact h (List.length_eq_zero_iff.1 hl.symm)
      refine J7 (hfree C ?_) ?_
      · rcases hn with hn | ⟨hn | hn, _⟩
        · exact .inl hn
        · exact .inr (.inr hn)
        · exact .inr (.inl (hne (hn l (by simp))))
      · rcases hn with hn | ⟨_, hn⟩
        · exact .inl hn
        · refine .inr ⟨.inr ?_, ?_⟩
          · intro k hk
            exact hn k (List.mem_of_mem_head? hk)
          · intro k hk
            exact hn k (List.mem_of_mem_tail hk)

/-! ## Inputs and outputs -/

theorem inputs_get {ty : List O} {i : Nat} (h : i < ty.length) : (inputs ty)[i]? = some ⟨.input, ty[i], spacing * (i : ℚ), 1⟩ := by
  simp only [inputs, List.getElem?_map]
  rw [List.getElem?_eq_getElem (by simpa using h)]
  simp

theorem inputs_length {ty : List O} : (inputs ty).length = ty.length := by simp [inputs]

theorem start_inv (ty : List O) : Inv (⟨[], inputs ty, []⟩ : Drawable O B) (List.range ty.length) := by
  have hx : ∀ i, i < ty.length → (⟨[], inputs ty, []⟩ : Drawable O B).xAt i = spacing * (i : ℚ) := by
    intro i hi
    simp only [Drawable.xAt]; rw [inputs_get hi]
  refine ⟨?_, by simp, by simp, by simp, ?_, by simp, by simp, ?_, by simp, by simp, by simp, by simp⟩
  · intro i hi
    simpa [inputs_length] using hi
  · unfold Gapped
    rw [List.pairwise_map]
    refine List.Pairwise.imp_of_mem ?_ (List.pairwise_lt_range (n := ty.length))
    intro a b ha hb hab
    rw [hx a (List.mem_range.1 ha), hx b (List.mem_range.1 hb)]
    have : (a : ℚ) + 1 ≤ b := by exact_mod_cast hab
    unfold spacing; linarith
  · intro i hi
    left
    simp only [Drawable.yAt]; rw [inputs_get (List.mem_range.1 hi)]

/-- What holds for a whole drawing. -/
structure Good (D : Drawable O B) (nIn nOut : Nat) : Prop where
  box_lt : ∀ b ∈ D.boxes, ∀ i ∈ b.dom ++ b.cod, i < D.ends.length
  wire_lt : ∀ w ∈ D.wires, w.1 < D.ends.length ∧ w.2 < D.ends.length
  vert : ∀ w ∈ D.wires, D.xAt w.1 = D.xAt w.2
  boxGap : ∀ b ∈ D.boxes, Gapped (b.dom.map D.xAt) ∧ Gapped (b.cod.map D.xAt)
  mid : ∀ b ∈ D.boxes, (∃ p ∈ D.points b, p ≤ b.x) ∧ ∃ p ∈ D.points b, b.x ≤ p
  boxY : ∀ b ∈ D.boxes, (∀ i ∈ b.dom, D.yAt i = b.y + 1 / 4) ∧ ∀ i ∈ b.cod, D.yAt i = b.y - 1 / 4
  down : ∀ w ∈ D.wires, D.yAt w.2 < D.yAt w.1
  inp_lt : nIn ≤ D.ends.length
  inp : Gapped ((List.range nIn).map D.xAt)
  out_lt : nOut ≤ D.ends.length
  out : Gapped ((List.range' (D.ends.length - nOut) nOut).map D.xAt)

structure Tidy (D : Drawable O B) : Prop where
  sep : D.boxes.Pairwise (fun b c => Apart (D.points b) (D.points c) ∨ c.y + 1 ≤ b.y)
  clear : ∀ w ∈ D.wires, ∀ b ∈ D.boxes, LeftOf (D.xAt w.1) (D.points b) ∨ RightOf (D.xAt w.1) (D.points b) ∨ D.yAt w.1 ≤ b.y - 1 / 4 ∨ b.y + 1 / 4 ≤ D.yAt w.2

section Outputs
variable {D : Drawable O B} {scan : List Nat} {minY : ℚ} {ty : List O}

theorem out_xAt_old {i : Nat} (h : i < D.ends.length) : (addOutputs D scan minY ty).xAt i = D.xAt i := by
  simp only [Drawable.xAt, addOutputs, List.getElem?_append_left h]

theorem out_yAt_old {i : Nat} (h : i < D.ends.length) : (addOutputs D scan minY ty).yAt i = D.yAt i := by
  simp only [Drawable.yAt, addOutputs, List.getElem?_append_left h]

theorem out_length (hl : scan.length = ty.length) : (addOutputs D scan minY ty).ends.length = D.ends.length + ty.length := by
  simp [addOutputs, hl]

theorem out_get (hl : scan.length = ty.length) {k : Nat} (h : k < scan.length) :
    (addOutputs D scan minY ty).ends[D.ends.length + k]? = some ⟨.output, ty[k]'(by omega), D.xAt scan[k], minY - 1⟩ := by
  simp only [addOutputs]
  rw [List.getElem?_append_right (by omega), Nat.add_sub_cancel_left, List.getElem?_map, List.getElem?_eq_getElem (by simp; omega)]
  simp

theorem out_points (I : Inv D scan) {b : BoxNode B} (hb : b ∈ D.boxes) : (addOutputs D scan minY ty).points b = D.points b := by
  unfold Drawable.points
  split_ifs
  · rfl
  · refine List.map_congr_left (fun i hi => out_xAt_old (I.box_lt b hb i ?_))
    simp only [List.mem_append] at hi ⊢; tauto

theorem out_wires (hl : scan.length = ty.length) : ∀ w ∈ (addOutputs D scan minY ty).wires, w ∈ D.wires ∨ ∃ k, ∃ h : k < scan.length, w = (scan[k], D.ends.length + k) := by
  intro w hw
  rcases List.mem_append.1 hw with hw | hw
  · exact .inl hw
  · right
    obtain ⟨k, hk, rfl⟩ := List.getElem_of_mem hw
    simp only [List.length_zip, List.length_range', hl, Nat.min_self] at hk
    exact ⟨k, by omega, by simp⟩

theorem addOutputs_good (I : Inv D scan) (hl : scan.length = ty.length) {nIn : Nat} (hn : nIn ≤ D.ends.length) (hg : Gapped ((List.range nIn).map D.xAt))
    (h1 : minY ≤ 1) (h2 : ∀ b ∈ D.boxes, minY ≤ b.y) : Good (addOutputs D scan minY ty) nIn ty.length := by
  have len := out_length (D := D) (minY := minY) hl
  have slt : ∀ k (h : k < scan.length), scan[k] < D.ends.length := fun k h => I.scan_lt _ (by simp)
  refine ⟨?_, ?_, ?_, ?_, ?_, ?_, ?_, ?_, ?_, ?_, ?_⟩
  · intro b hb i hi
    have := I.box_lt b hb i hi
    omega
  · intro w hw
    rcases out_wires hl w hw with hw | ⟨k, hk, rfl⟩
    · have := I.wire_lt w hw; omega
    · have := slt k hk; simp only; omega
  · intro w hw
    rcases out_wires hl w hw with hw | ⟨k, hk, rfl⟩
    · rw [out_xAt_old (I.wire_lt w hw).1, out_xAt_old (I.wire_lt w hw).2, I.vert w hw]
    · simp only
      rw [out_xAt_old (slt k hk)]
      conv_rhs => rw [Drawable.xAt, out_get hl hk]
  · intro b hb
    have := I.box_lt b hb
    rw [List.map_congr_left (fun i hi => out_xAt_old (this i (by simp [hi]))), List.map_congr_left (l := b.cod) (fun i hi => out_xAt_old (this i (by simp [hi])))]
    exact I.boxGap b hb
  · intro b hb
    rw [out_points I hb]; exact I.mid b hb
  · intro b hb
    have := I.box_lt b hb
    refine ⟨fun i hi => ?_, fun i hi => ?_⟩
    · rw [out_yAt_old (this i (by simp [hi]))]; exact (I.boxY b hb).1 i hi
    · rw [out_yAt_old (this i (by simp [hi]))]; exact (I.boxY b hb).2 i hi
  · intro w hw
    rcases out_wires hl w hw with hw | ⟨k, hk, rfl⟩
    · rw [out_yAt_old (I.wire_lt w hw).1, out_yAt_old (I.wire_lt w hw).2]; exact I.down w hw
    · simp only
      rw [out_yAt_old (slt k hk)]
      conv_lhs => rw [Drawable.yAt, out_get hl hk]
      rcases I.src scan[k] (by simp) with h | ⟨b, hb, h⟩
      · rw [h]; simp only; linarith
      · rw [(I.boxY b hb).2 _ h]
        have := h2 b hb
        simp only; linarith
  · omega
  · rw [List.map_congr_left (fun i hi => out_xAt_old (by have := List.mem_range.1 hi; omega))]
    exact hg
  · omega
  · rw [len, Nat.add_sub_cancel]
    have : (List.range' D.ends.length ty.length).map (addOutputs D scan minY ty).xAt = scan.map D.xAt := by
      apply List.ext_getElem
      · simp [hl]
      · intro k h1 h2
        simp only [List.length_map] at h2
        simp only [List.getElem_map, List.getElem_range', Nat.one_mul]
        rw [Drawable.xAt, out_get hl h2]
    rw [this]; exact I.gap

theorem addOutputs_tidy (I : Inv D scan) (C : Free D scan) (hl : scan.length = ty.length) : Tidy (addOutputs D scan minY ty) := by
  have slt : ∀ k (h : k < scan.length), scan[k] < D.ends.length := fun k h => I.scan_lt _ (by simp)
  refine ⟨?_, ?_⟩
  · refine List.Pairwise.imp_of_mem ?_ C.sep
    intro b c hb hc h
    rwa [out_points I hb, out_points I hc]
  · intro w hw b hb
    rw [out_points I hb]
    rcases out_wires hl w hw with hw | ⟨k, hk, rfl⟩
    · rw [out_xAt_old (I.wire_lt w hw).1, out_yAt_old (I.wire_lt w hw).1, out_yAt_old (I.wire_lt w hw).2]
      exact C.clear w hw b hb
    · simp only
      rw [out_xAt_old (slt k hk), out_yAt_old (slt k hk)]
      rcases C.opened scan[k] (by simp) b hb with h | h | h <;> tauto

end Outputs

/-! ## Moving -/

section Move
variable {D : Drawable O B} {a b : ℚ}

theorem tr_x {i : Nat} (h : i < D.ends.length) : (D.translate a b).xAt i = D.xAt i - a := by
  simp [Drawable.xAt, Drawable.translate, List.getElem?_map, List.getElem?_eq_getElem h]

theorem tr_y {i : Nat} (h : i < D.ends.length) : (D.translate a b).yAt i = D.yAt i - b := by
  simp [Drawable.yAt, Drawable.translate, List.getElem?_map, List.getElem?_eq_getElem h]

theorem tr_len : (D.translate a b).ends.length = D.ends.length := by simp [Drawable.translate]

theorem tr_xs {l : List Nat} (h : ∀ i ∈ l, i < D.ends.length) : l.map (D.translate a b).xAt = (l.map D.xAt).map (fun v => v - a) := by
  simp only [List.map_map]
  exact List.map_congr_left (fun i hi => tr_x (h i hi))

/-- The box at its new place. -/
def BoxNode.shifted (a b : ℚ) (n : BoxNode B) : BoxNode B := { n with x := n.x - a, y := n.y - b }

theorem tr_points {n : BoxNode B} (h : ∀ i ∈ n.dom ++ n.cod, i < D.ends.length) : (D.translate a b).points (n.shifted a b) = (D.points n).map (fun v => v - a) := by
  unfold Drawable.points BoxNode.shifted
  by_cases hb : n.cod ++ n.dom = []
  · simp [hb]
  · simp only [hb, if_false]
    exact tr_xs (fun i hi => h i (by simp only [List.mem_append] at hi ⊢; tauto))

theorem tr_mem {n : BoxNode B} : n ∈ (D.translate a b).boxes ↔ ∃ c ∈ D.boxes, c.shifted a b = n := by
  simp [Drawable.translate, BoxNode.shifted]

theorem shift_expansive : Expansive (fun v : ℚ => v - a) := by intro u v h; simp only; linarith

theorem Good.move {nIn nOut : Nat} (G : Good D nIn nOut) : Good (D.translate a b) nIn nOut := by
  have sh := shift_expansive (a := a)
  refine ⟨?_, ?_, ?_, ?_, ?_, ?_, ?_, ?_, ?_, ?_, ?_⟩
  · intro n hn i hi
    obtain ⟨c, hc, rfl⟩ := tr_mem.1 hn
    rw [tr_len]; exact G.box_lt c hc i hi
  · rw [tr_len]; exact G.wire_lt
  · intro w hw
    rw [tr_x (G.wire_lt w hw).1, tr_x (G.wire_lt w hw).2, G.vert w hw]
  · intro n hn
    obtain ⟨c, hc, rfl⟩ := tr_mem.1 hn
    have := G.box_lt c hc
    refine ⟨?_, ?_⟩
    · show Gapped (c.dom.map _)
      rw [tr_xs (fun i hi => this i (by simp [hi]))]; exact (G.boxGap c hc).1.map sh
    · show Gapped (c.cod.map _)
      rw [tr_xs (fun i hi => this i (by simp [hi]))]; exact (G.boxGap c hc).2.map sh
  · intro n hn
    obtain ⟨c, hc, rfl⟩ := tr_mem.1 hn
    obtain ⟨⟨p, hp, hpx⟩, q, hq, hqx⟩ := G.mid c hc
    rw [tr_points (G.box_lt c hc)]
    exact ⟨⟨p - a, List.mem_map_of_mem hp, sh.mono hpx⟩, q - a, List.mem_map_of_mem hq, sh.mono hqx⟩
  · intro n hn
    obtain ⟨c, hc, rfl⟩ := tr_mem.1 hn
    have := G.box_lt c hc
    refine ⟨fun i hi => ?_, fun i hi => ?_⟩
    · rw [tr_y (this i (by simp only [List.mem_append]; exact .inl hi)), (G.boxY c hc).1 i hi]
      show _ = c.y - b + 1 / 4
      ring
    · rw [tr_y (this i (by simp only [List.mem_append]; exact .inr hi)), (G.boxY c hc).2 i hi]
      show _ = c.y - b - 1 / 4
      ring
  · intro w hw
    rw [tr_y (G.wire_lt w hw).1, tr_y (G.wire_lt w hw).2]
    have := G.down w hw
    linarith
  · rw [tr_len]; exact G.inp_lt
  · rw [tr_xs (fun i hi => lt_of_lt_of_le (List.mem_range.1 hi) G.inp_lt)]; exact G.inp.map sh
  · rw [tr_len]; exact G.out_lt
  · rw [tr_len, tr_xs]
    · exact G.out.map sh
    · intro i hi
      obtain ⟨k, hk, rfl⟩ := List.mem_range'.1 hi
      have := G.out_lt
      omega

theorem Tidy.move {nIn nOut : Nat} (G : Good D nIn nOut) (T : Tidy D) : Tidy (D.translate a b) := by
  have sh := shift_expansive (a := a)
  refine ⟨?_, ?_⟩
  · show (D.boxes.map (BoxNode.shifted a b)).Pairwise _
    rw [List.pairwise_map]
    refine List.Pairwise.imp_of_mem ?_ T.sep
    intro m n hm hn h
    rw [tr_points (G.box_lt m hm), tr_points (G.box_lt n hn)]
    refine h.imp (fun x => x.map sh) (fun h => ?_)
    show n.y - b + 1 ≤ m.y - b
    linarith
  · intro w hw n hn
    obtain ⟨c, hc, rfl⟩ := tr_mem.1 hn
    rw [tr_points (G.box_lt c hc), tr_x (G.wire_lt w hw).1, tr_y (G.wire_lt w hw).1, tr_y (G.wire_lt w hw).2]
    rcases T.clear w hw c hc with h | h | h | h
    · exact .inl (h.map sh)
    · exact .inr (.inl (h.map sh))
    · right; right; left
      show _ ≤ c.y - b - 1 / 4
      linarith
    · right; right; right
      show c.y - b + 1 / 4 ≤ _
      linarith

end Move

theorem fromDiagram_ok {keep : B → Bool} {fol : Bool} {d : Diagram O B} {r : Drawable O B} (h : fromDiagram keep fol d = .ok r) :
    r = (addOutputs (drawBoxes keep fol 0 ⟨[], inputs d.dom, []⟩ (List.range d.dom.length) 1 d.layers).1
        (drawBoxes keep fol 0 ⟨[], inputs d.dom, []⟩ (List.range d.dom.length) 1 d.layers).2.1
        (drawBoxes keep fol 0 ⟨[], inputs d.dom, []⟩ (List.range d.dom.length) 1 d.layers).2.2 d.cod).translate
      (minOf (addOutputs (drawBoxes keep fol 0 ⟨[], inputs d.dom, []⟩ (List.range d.dom.length) 1 d.layers).1
        (drawBoxes keep fol 0 ⟨[], inputs d.dom, []⟩ (List.range d.dom.length) 1 d.layers).2.1
        (drawBoxes keep fol 0 ⟨[], inputs d.dom, []⟩ (List.range d.dom.length) 1 d.layers).2.2 d.cod).xs)
      ((minOf (addOutputs (drawBoxes keep fol 0 ⟨[], inputs d.dom, []⟩ (List.range d.dom.length) 1 d.layers).1
        (drawBoxes keep fol 0 ⟨[], inputs d.dom, []⟩ (List.range d.dom.length) 1 d.layers).2.1
        (drawBoxes keep fol 0 ⟨[], inputs d.dom, []⟩ (List.range d.dom.length) 1 d.layers).2.2 d.cod).ys +
        maxOf (addOutputs (drawBoxes keep fol 0 ⟨[], inputs d.dom, []⟩ (List.range d.dom.length) 1 d.layers).1
        (drawBoxes keep fol 0 ⟨[], inputs d.dom, []⟩ (List.range d.dom.length) 1 d.layers).2.1
        (drawBoxes keep fol 0 ⟨[], inputs d.dom, []⟩ (List.range d.dom.length) 1 d.layers).2.2 d.cod).ys) / 2) := by
  simp only [fromDiagram, moveToOrigin] at h
  split_ifs at h
  injection h with h
  exact h.symm

theorem fromDiagram_good {keep : B → Bool} {fol : Bool} {d : Diagram O B} {r : Drawable O B} (w : d.WT) (h : fromDiagram keep fol d = .ok r) :
    Good r d.dom.length d.cod.length ∧ (fol = true ∨ (∀ l ∈ d.layers.tail, l.dom ≠ []) → Tidy r) := by
  obtain ⟨J1, J2, J3, J4, ⟨J5, J5'⟩, J6, J7⟩ := drawBoxes_spec (keep := keep) (fol := fol) d.layers d.dom d.cod 0 ⟨[], inputs d.dom, []⟩ (List.range d.dom.length) 1 w (by simp)
    (start_inv d.dom) (by simp) (le_refl _) (by simp)
  rw [fromDiagram_ok h]
  have s := start_inv (B := B) d.dom
  have hg := J4 (List.range d.dom.length) (by simp [inputs_length]) s.gap
  have G := addOutputs_good (ty := d.cod) J1 J2 (by simpa [inputs_length] using J3) hg J5 J5'
  refine ⟨G.move, fun hn => Tidy.move G (addOutputs_tidy J1 (J7 ?_ ?_) J2)⟩
  · exact ⟨by simp, by simp, by simp⟩
  · rcases hn with hn | hn
    · exact .inl hn
    · exact .inr ⟨.inl rfl, hn⟩

end Draw
end Lambeq
