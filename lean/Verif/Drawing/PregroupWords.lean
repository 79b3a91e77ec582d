import Verif.Drawing.PregroupRun

namespace Lambeq
namespace Draw
open DRewrite
set_option linter.unusedSectionVars false
set_option linter.unusedSimpArgs false

/-! ## The words -/

structure WInv (i : Nat) (s : PState) : Prop where
  tr : s.tracks = List.range s.D.ends.length
  sc : s.scan = List.range s.D.ends.length
  wires : s.D.wires = []
  boxes : ∀ b ∈ s.D.boxes, b.dom = [] ∧ b.y = 0
  own : s.D.boxes.flatMap (fun b => b.dom ++ b.cod) = List.range s.D.ends.length
  cnt : s.D.boxes.length = i
  inc : (s.D.ends.map WireEnd.x).Pairwise (· < ·)
  bound : ∀ e ∈ s.D.ends, 0 < e.x ∧ e.x < 5 / 2 * (i : ℚ)
  place : ∀ (k : Nat) (b : BoxNode Box), s.D.boxes[k]? = some b → b.x = 5 / 2 * (k : ℚ) + (if isCapBox b.obj = true then 1 else 0) ∧
    ∀ (j c : Nat), b.cod[j]? = some c → c < s.D.ends.length ∧ s.D.xAt c = 5 / 2 * (k : ℚ) + 2 / ((b.cod.length : ℚ) + 1) * ((j : ℚ) + 1)

theorem frac_bounds {n j : Nat} (h : j < n) : 0 < 2 / ((n : ℚ) + 1) * ((j : ℚ) + 1) ∧ 2 / ((n : ℚ) + 1) * ((j : ℚ) + 1) < 2 := by
  have hn : (0 : ℚ) < (n : ℚ) + 1 := by positivity
  have hj : (j : ℚ) + 1 < (n : ℚ) + 1 := by
    have : (j : ℚ) < n := by exact_mod_cast h
    linarith
  constructor
  · positivity
  · rw [div_mul_eq_mul_div, div_lt_iff₀ hn]; linarith

theorem frac_lt {n j k : Nat} (h : j < k) : 2 / ((n : ℚ) + 1) * ((j : ℚ) + 1) < 2 / ((n : ℚ) + 1) * ((k : ℚ) + 1) := by
  have hn : (0 : ℚ) < 2 / ((n : ℚ) + 1) := by positivity
  have : (j : ℚ) < k := by exact_mod_cast h
  exact mul_lt_mul_of_pos_left (by linarith) hn

theorem wordEnds_length (i : Nat) (ty : Ty) : (wordEnds i ty).length = ty.length := by simp [wordEnds]

theorem wordEnds_get {i : Nat} {ty : Ty} {j : Nat} (h : j < ty.length) :
    (wordEnds i ty)[j]'(by rw [wordEnds_length]; exact h) = ⟨.cod, ty[j], 5 / 2 * (i : ℚ) + 2 / ((ty.length : ℚ) + 1) * ((j : ℚ) + 1), 1 / 4⟩ := by
  simp [wordEnds, wordStep, wordWidth]

theorem addWord_inv {i : Nat} {s : PState} (W : WInv i s) (w : Box) : WInv (i + 1) (addWord i s w) := by
  have len : (addWord i s w).D.ends.length = s.D.ends.length + w.cod.length := by simp [addWord, wordEnds_length]
  have xo : ∀ c < s.D.ends.length, (addWord i s w).D.xAt c = s.D.xAt c := by
    intro c hc
    simp only [Drawable.xAt, addWord, List.getElem?_append_left hc]
  have xn : ∀ j < w.cod.length, (addWord i s w).D.xAt (s.D.ends.length + j) = 5 / 2 * (i : ℚ) + 2 / ((w.cod.length : ℚ) + 1) * ((j : ℚ) + 1) := by
    intro j hj
    simp only [Drawable.xAt, addWord]
    rw [List.getElem?_append_right (by omega), Nat.add_sub_cancel_left, List.getElem?_eq_getElem (by rw [wordEnds_length]; exact hj), wordEnds_get hj]
  refine
    { tr := ?_, sc := ?_, wires := W.wires, boxes := ?_, own := ?_, cnt := ?_, inc := ?_, bound := ?_, place := ?_ }
  · rw [len]
    simp only [addWord, W.tr, List.length_range]
    rw [List.range_add]; simp [List.range'_eq_map_range]
  · rw [len]
    simp only [addWord, W.sc]
    rw [List.range_add]; simp [List.range'_eq_map_range]
  · intro b hb
    simp only [addWord, List.mem_append, List.mem_singleton] at hb
    rcases hb with hb | rfl
    · exact W.boxes b hb
    · exact ⟨rfl, rfl⟩
  · rw [len, List.range_add]
    simp only [addWord, List.flatMap_append, W.own]
    simp [List.range'_eq_map_range]
  · simp [addWord, W.cnt]
  · simp only [addWord, List.map_append]
    rw [List.pairwise_append]
    refine ⟨W.inc, ?_, ?_⟩
    · rw [List.pairwise_iff_getElem]
      intro j k hj hk hjk
      simp only [List.length_map, wordEnds_length] at hj hk
      simp only [List.getElem_map]
      rw [wordEnds_get hj, wordEnds_get hk]
      have := frac_lt (n := w.cod.length) hjk
      simp only
      linarith
    · intro u hu v hv
      obtain ⟨e, he, rfl⟩ := List.mem_map.1 hu
      obtain ⟨f, hf, rfl⟩ := List.mem_map.1 hv
      obtain ⟨j, hj, rfl⟩ := List.mem_iff_getElem.1 hf
      rw [wordEnds_length] at hj
      rw [wordEnds_get hj]
      have := (W.bound e he).2
      have := (frac_bounds hj).1
      simp only
      linarith
  · intro e he
    simp only [addWord, List.mem_append] at he
    push_cast
    rcases he with he | he
    · have := W.bound e he
      constructor <;> linarith
    · obtain ⟨j, hj, rfl⟩ := List.mem_iff_getElem.1 he
      rw [wordEnds_length] at hj
      rw [wordEnds_get hj]
      have := frac_bounds hj
      have : (0 : ℚ) ≤ i := by positivity
      simp only
      constructor <;> linarith
  · intro k b hb
    rw [len]
    simp only [addWord] at hb
    by_cases h : k < s.D.boxes.length
    · rw [List.getElem?_append_left h] at hb
      refine ⟨(W.place k b hb).1, ?_⟩
      intro j c hc
      obtain ⟨h1, h2⟩ := (W.place k b hb).2 j c hc
      rw [xo c h1]
      exact ⟨by omega, h2⟩
    · rw [List.getElem?_append_right (by omega)] at hb
      have hk : k - s.D.boxes.length = 0 := by
        by_contra hne
        rw [List.getElem?_eq_none (by simp; omega)] at hb
        exact absurd hb (by simp)
      rw [hk] at hb
      simp only [List.getElem?_cons_zero, Option.some.injEq] at hb
      have hki : k = i := by have := W.cnt; omega
      subst hki; subst hb
      refine ⟨?_, ?_⟩
      · simp only [wordStep, wordWidth]; split_ifs <;> norm_num
      · intro j c hc
        simp only at hc
        have hj : j < w.cod.length := by
          by_contra hne
          rw [List.getElem?_eq_none (by simp; omega)] at hc
          exact absurd hc (by simp)
        rw [List.getElem?_eq_getElem (by simpa using hj)] at hc
        simp only [List.getElem_range', Option.some.injEq, Nat.one_mul] at hc
        subst hc
        rw [xn j hj]
        simp only [List.length_range']
        exact ⟨by omega, trivial⟩

theorem addWord_skel {all : List GLayer} {k : Nat} {l : GLayer} (hl : all[k]? = some l) {s : PState} (S : Skel [] all k s.D s.scan) (hlen : s.scan.length = l.left.length)
    (hd : l.box.dom = []) : Skel [] all (k + 1) (addWord k s l.box).D (addWord k s l.box).scan := by
  have S0 : Skel [] all k s.D (s.scan ++ [] ++ []) := by simpa using S
  have Sk := addBox_skel hl S0 hlen (by simp [BoxSig.dom, hd]) (fun _ => false) 0 0
  refine skel_congr Sk ?_ ?_ ?_ ?_
  · simp [addWord, addBox, BoxSig.dom, BoxSig.cod, hd, List.range']
  · have := codEnds_skel (D := s.D) (scan := s.scan ++ [] ++ []) (k := false) (m := 0) (off := s.scan.length) (ty := l.box.cod) (x := 0) (y := 0)
    simp only [addWord, addBox, BoxSig.dom, BoxSig.cod, hd, domEnds, List.map_append, List.length_nil]
    rw [this]
    simp only [List.zip_nil_left, List.map_nil, List.append_nil]
    congr 1
    apply List.ext_getElem
    · simp [wordEnds]
    · intro i h1 h2
      simp [wordEnds]
  · simp [addWord, addBox, BoxSig.dom, hd]
  · simp [addWord, addBox, BoxSig.dom, BoxSig.cod, hd]

theorem words_spec {all M : List GLayer} : ∀ (ws : List (String × Ty × Int)) (p : Ty) (i : Nat) (s : PState), all.drop i = wl p ws ++ M → WInv i s → Skel [] all i s.D s.scan → s.scan.length = p.length →
    WInv (i + ws.length) (addWords i s (ws.map (fun w => .word w.1 w.2.1 w.2.2))) ∧
    Skel [] all (i + ws.length) (addWords i s (ws.map (fun w => .word w.1 w.2.1 w.2.2))).D (addWords i s (ws.map (fun w => .word w.1 w.2.1 w.2.2))).scan ∧
    (addWords i s (ws.map (fun w => .word w.1 w.2.1 w.2.2))).scan.length = (p ++ tys ws).length ∧ all.drop (i + ws.length) = M := by
  intro ws
  induction ws with
  | nil => intro p i s hd W S hl; exact ⟨W, S, by simpa [tys, addWords] using hl, by simpa [wl] using hd⟩
  | cons w ws ih =>
    intro p i s hd W S hl
    obtain ⟨n, c, z⟩ := w
    simp only [wl, List.cons_append] at hd
    have hget : all[i]? = some ⟨p, .word n c z, []⟩ := by
      have := congrArg (fun z => z[0]?) hd
      simpa using this
    have hdrop : all.drop (i + 1) = wl (p ++ c) ws ++ M := by
      rw [← List.drop_drop, hd]; simp
    have S' := addWord_skel hget S hl rfl
    have h := ih (p ++ c) (i + 1) (addWord i s (.word n c z)) hdrop (addWord_inv W _) S' (by simp [addWord, hl, Box.cod])
    simp only [List.map_cons, addWords, List.length_cons]
    rw [show i + (ws.length + 1) = i + 1 + ws.length by omega]
    refine ⟨h.1, h.2.1, ?_, h.2.2.2⟩
    rw [h.2.2.1]; simp [tys]

theorem words_start (all : List GLayer) : WInv 0 ⟨⟨[], [], []⟩, [], [], []⟩ ∧ Skel [] all 0 (⟨[], [], []⟩ : Drawable Ob Box) [] := by
  refine ⟨⟨rfl, rfl, rfl, by simp, by simp, rfl, by simp, by simp, by simp⟩, ?_⟩
  have := start_skel (O := Ob) (B := Box) [] all
  simpa [inputs] using this

theorem split_words (p : Ty) (ws : List (String × Ty × Int)) (M : List GLayer) (hM : ∀ l ∈ M, Morphic l) :
    splitWords (wl p ws ++ M) = .ok (ws.map (fun w => .word w.1 w.2.1 w.2.2), M) := by
  induction ws generalizing p with
  | nil =>
    simp only [wl, List.nil_append, List.map_nil]
    cases M with
    | nil => rfl
    | cons l M =>
      rcases hM l (by simp) with ⟨u, v, r, h⟩ | ⟨u, v, h⟩ <;> simp [splitWords, h, isGrammar]
  | cons w ws ih =>
    obtain ⟨n, c, z⟩ := w
    simp only [wl, List.cons_append, splitWords, isGrammar, Box.dom]
    rw [ih]
    simp

/-- The state before the boxes below the words. -/
theorem start_inv' {i : Nat} {s : PState} (W : WInv i s) :
    PInv s.D.ends.length s.D.xAt (List.replicate s.D.ends.length 0) { s with depth := List.replicate s.tracks.length 0 } ∧ ∀ j k, j < k → k < s.D.ends.length → s.D.xAt j < s.D.xAt k := by
  have tl : s.tracks.length = s.D.ends.length := by rw [W.tr, List.length_range]
  have htr : ∀ j < s.D.ends.length, (PState.tr { s with depth := List.replicate s.tracks.length 0 } j) = j := by
    intro j hj
    simp only [PState.tr, W.tr]
    rw [List.getD_eq_getElem _ _ (by simpa using hj)]; simp
  have hdep : ∀ t, (PState.dep { s with depth := List.replicate s.tracks.length 0 } t) = 0 := by
    intro t
    simp only [PState.dep]
    by_cases h : t < s.tracks.length
    · rw [List.getD_eq_getElem _ _ (by simpa using h)]; simp
    · rw [List.getD_eq_default _ _ (by simpa using h)]
  have hL : ∀ t, (List.replicate s.D.ends.length (0 : ℚ)).getD t 0 = 0 := by
    intro t
    by_cases h : t < s.D.ends.length
    · rw [List.getD_eq_getElem _ _ (by simpa using h)]; simp
    · rw [List.getD_eq_default _ _ (by simpa using h)]
  have nodom : ∀ b ∈ s.D.boxes, ∀ p q, b.dom ≠ [p, q] := by
    intro b hb p q
    rw [(W.boxes b hb).1]; simp
  have scm : ∀ a, a ∈ s.scan ↔ a < s.D.ends.length := by intro a; rw [W.sc, List.mem_range]
  constructor
  · refine
      { tlen := tl, llen := by simp, dlen := by simp [tl], tlt := fun i hi => by rw [htr i hi]; exact hi, x := fun i hi => by rw [htr i hi], slt := fun a ha => (scm a).1 ha, sorted := ?_,
        live := fun a _ => by rw [hdep, hL], own := W.own, scod := ?_, lev := fun b hb i _ => by rw [hL, (W.boxes b hb).2], wires := ?_, gram := ?_, pair := ?_, clear := ?_, ahead := ?_, low := ?_,
        top := fun t _ => le_of_eq (hdep t), nonpos := ?_ }
    · have : s.scan.map (PState.tr { s with depth := List.replicate s.tracks.length 0 }) = List.range s.D.ends.length := by
        rw [W.sc]
        conv_rhs => rw [← List.map_id (List.range s.D.ends.length)]
        exact List.map_congr_left (fun j hj => htr j (List.mem_range.1 hj))
      simp only
      rw [this]
      exact List.pairwise_lt_range
    · intro a ha
      have : a ∈ s.D.boxes.flatMap (fun b => b.dom ++ b.cod) := by rw [W.own, List.mem_range]; exact (scm a).1 ha
      obtain ⟨b, hb, h⟩ := List.mem_flatMap.1 this
      rw [(W.boxes b hb).1] at h
      exact ⟨b, hb, by simpa using h⟩
    · intro w hw
      simp only [W.wires] at hw
      exact absurd hw (by simp)
    · intro b hb h; exact absurd (W.boxes b hb).1 h
    · refine List.Pairwise.imp_of_mem (R := fun _ _ => True) ?_ (List.pairwise_of_forall (by simp))
      intro b c hb _ _ p q p' q' h; exact absurd h (nodom b hb p q)
    · intro b hb p q h; exact absurd h (nodom b hb p q)
    · intro b hb p q h; exact absurd h (nodom b hb p q)
    · intro b hb p q h; exact absurd h (nodom b hb p q)
    · intro b hb h; exact absurd (W.boxes b hb).1 h
  · intro j k hjk hk
    have := (List.pairwise_iff_getElem.1 W.inc) j k (by simp; omega) (by simpa using hk) hjk
    simp only [List.getElem_map] at this
    rw [Drawable.xAt, Drawable.xAt, List.getElem?_eq_getElem hk, List.getElem?_eq_getElem (show j < s.D.ends.length by omega)]
    exact this

end Draw
end Lambeq
