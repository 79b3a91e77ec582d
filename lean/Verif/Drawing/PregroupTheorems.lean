import Verif.Drawing.PregroupFinal

namespace Lambeq
namespace Draw
open DRewrite Diagram GDiagram
set_option linter.unusedSectionVars false
set_option linter.unusedSimpArgs false

theorem flat_shape {d : GDiagram} {D : Drawable Ob Box} {n0 N : Nat} {X : Nat → ℚ} {tr : Nat → Nat} {L : Nat → ℚ} (F : Flat d D n0 N X tr L) :
    D.boxes.map BoxNode.obj = d.boxes ∧ ∀ b ∈ D.boxes, b.dom.length = b.obj.dom.length ∧ b.cod.length = b.obj.cod.length := by
  have h := F.boxes
  constructor
  · have := congrArg (List.map Prod.fst) h
    simp only [List.map_map, boxList, List.take_length] at this
    rw [show (Prod.fst ∘ fun b : BoxNode Box => (b.obj, b.dom, b.cod)) = BoxNode.obj from rfl] at this
    rw [this, Diagram.boxes]
    apply List.ext_getElem
    · simp
    · intro i h1 h2; simp
  · intro b hb
    have : (b.obj, b.dom, b.cod) ∈ boxList 0 d.layers d.layers.length := by
      rw [← h]; exact List.mem_map.2 ⟨b, hb, rfl⟩
    rw [boxList] at this
    obtain ⟨p, _, e⟩ := List.mem_map.1 this
    simp only [Prod.mk.injEq] at e
    obtain ⟨e1, e2, e3⟩ := e
    rw [← e1, ← e2, ← e3]
    simp [BoxSig.dom, BoxSig.cod]

theorem flat_min {d : GDiagram} {D : Drawable Ob Box} {n0 N : Nat} {X : Nat → ℚ} {tr : Nat → Nat} {L : Nat → ℚ} (F : Flat d D n0 N X tr L) : minOf D.xs = 0 := by
  obtain ⟨b, hb, hx⟩ := F.first
  have h0 : (0 : ℚ) ∈ D.xs := by
    rw [Drawable.xs]
    exact List.mem_append_left _ (List.mem_map.2 ⟨b, List.mem_of_getElem? hb, hx⟩)
  apply le_antisymm (minOf_le _ h0)
  have hm := minOf_mem (List.ne_nil_of_mem h0)
  have trlt : ∀ c ∈ D.boxes, ∀ i ∈ c.dom ++ c.cod, tr i < N := by
    intro c hc i hi
    have : i ∈ D.boxes.flatMap (fun b => b.dom ++ b.cod) := List.mem_flatMap.2 ⟨c, hc, hi⟩
    rw [F.own] at this
    exact (F.x i (lt_of_lt_of_le (List.mem_range.1 this) F.n0le)).2
  rw [Drawable.xs, List.mem_append] at hm
  rcases hm with hm | hm
  · obtain ⟨c, hc, e⟩ := List.mem_map.1 hm
    rw [Drawable.xs, ← e]
    by_cases hd : c.dom = []
    · obtain ⟨k, hk⟩ := List.getElem?_of_mem hc
      rw [(F.words k c hk hd).2.1]
      split_ifs <;> positivity
    · obtain ⟨p, q, h1, _, h2, _⟩ := F.gram c hc hd
      have := F.pos _ (trlt c hc p (by simp [h1]))
      have := F.pos _ (trlt c hc q (by simp [h1]))
      rw [h2]; linarith
  · obtain ⟨e, he, ee⟩ := List.mem_map.1 hm
    obtain ⟨i, hi, rfl⟩ := List.mem_iff_getElem.1 he
    have h1 := F.x i hi
    rw [Drawable.xAt, List.getElem?_eq_getElem hi] at h1
    have := F.pos _ h1.2
    rw [Drawable.xs, ← ee]
    have h2 := h1.1
    simp only at h2
    rw [h2]; linarith

/-- The facts about drawings of pregroup diagrams with a wire. -/
theorem draw_facts {d : GDiagram} (w : d.WT) (hp : isPregroup d = true) (hne : ∃ b ∈ d.boxes, b.cod ≠ []) :
    ∃ D n0 N X tr L, Flat d D n0 N X tr L ∧ (∀ b ∈ D.boxes, isCapBox b.obj = false) ∧ ∀ sx sy px py, ∃ r, drawPregroup sx sy px py d = .ok r ∧ ∃ cy, Final sx sy px cy D r := by
  have hdom : d.dom = [] := by
    unfold isPregroup at hp
    split_ifs at hp with h
    simpa using h
  have hlp : isPregroupLoop true d.layers = true := by
    unfold isPregroup at hp
    split_ifs at hp with h
    exact hp
  have hch : Diagram.Chain [] d.layers d.cod := by
    have := w
    unfold Diagram.WT at this
    rw [hdom] at this; exact this
  obtain ⟨ws, M, e1, e2, e3⟩ := loop_true hch hlp
  rw [List.nil_append] at e2
  obtain ⟨W0, S0⟩ := words_start d.layers
  obtain ⟨W, S, sl, dr⟩ := words_spec (M := M) ws [] 0 _ (by rw [e1]; rfl) W0 S0 rfl
  simp only [Nat.zero_add, List.nil_append] at W S sl dr
  generalize hs : addWords 0 ⟨⟨[], [], []⟩, [], [], []⟩ (ws.map (fun w => Box.word w.1 w.2.1 w.2.2)) = s at *
  have hcapL : ∀ l ∈ d.layers, isCapBox l.box = false := by
    intro l hl
    rw [e1, List.mem_append] at hl
    rcases hl with hl | hl
    · have : ∀ (ws : List (String × Ty × Int)) (p : Ty), ∀ l ∈ wl p ws, isCapBox l.box = false := by
        intro ws
        induction ws with
        | nil => intro p l hl; exact absurd hl (by simp [wl])
        | cons u ws ih =>
          obtain ⟨n, c, z⟩ := u
          intro p l hl
          rw [wl] at hl
          rcases List.mem_cons.1 hl with rfl | hl
          · rfl
          · exact ih _ l hl
      exact this ws [] l hl
    · rcases e3 l hl with ⟨x, y, r, h⟩ | ⟨x, y, h⟩ <;> rw [h] <;> rfl
  have slen : s.scan.length = s.D.ends.length := by rw [W.sc, List.length_range]
  have hN : 0 < s.D.ends.length := by
    by_contra h0
    have h0 : s.D.ends.length = 0 := by omega
    have ht : tys ws = [] := by
      rw [← List.length_eq_zero_iff, ← sl, slen]; exact h0
    have hM : M = [] := by
      cases M with
      | nil => rfl
      | cons l M =>
        have := e2.1
        rw [ht] at this
        rcases e3 l (by simp) with ⟨x, y, r, h⟩ | ⟨x, y, h⟩ <;> simp [Layer.dom, h, BoxSig.dom, Box.dom] at this
    obtain ⟨b, hb, hc⟩ := hne
    rw [Diagram.boxes, e1, hM, List.append_nil] at hb
    obtain ⟨l, hl, rfl⟩ := List.mem_map.1 hb
    have : ∀ (ws : List (String × Ty × Int)) (p : Ty), tys ws = [] → ∀ l ∈ wl p ws, l.box.cod = [] := by
      intro ws
      induction ws with
      | nil => intro p _ l hl; exact absurd hl (by simp [wl])
      | cons u ws ih =>
        obtain ⟨n, c, z⟩ := u
        intro p h l hl
        simp only [tys, List.map_cons, List.flatten_cons, List.append_eq_nil_iff] at h
        rw [wl] at hl
        rcases List.mem_cons.1 hl with rfl | hl
        · simpa [Box.cod] using h.1
        · exact ih _ (by simpa [tys] using h.2) l hl
    exact hc (this ws [] ht l hl)
  have hws : 0 < ws.length := by
    rw [← W.cnt]
    by_contra h
    have := W.own
    rw [List.length_eq_zero_iff.1 (Nat.eq_zero_of_not_pos h)] at this
    have := congrArg List.length this
    simp at this; omega
  have hcap : ∀ b ∈ s.D.boxes, isCapBox b.obj = false := by
    intro b hb
    have : (b.obj, b.dom, b.cod) ∈ boxList 0 d.layers ws.length := by
      have := S.boxes
      rw [List.length_nil] at this
      rw [← this]; exact List.mem_map.2 ⟨b, hb, rfl⟩
    rw [boxList] at this
    obtain ⟨q, hq, e⟩ := List.mem_map.1 this
    simp only [Prod.mk.injEq] at e
    rw [← e.1]
    exact hcapL _ (List.mem_of_mem_take (List.fst_mem_of_mem_zipIdx hq))
  have hle : ws.length ≤ d.layers.length := by
    rw [e1, List.length_append]
    have : ∀ (ws : List (String × Ty × Int)) (p : Ty), (wl p ws).length = ws.length := by
      intro ws
      induction ws with
      | nil => intro p; rfl
      | cons u ws ih => intro p; obtain ⟨n, c, z⟩ := u; simp [wl, ih]
    rw [this]; omega
  obtain ⟨s', L', r1, r2, r3, r4, r5⟩ := run_spec (all := d.layers) M (tys ws) d.cod ws.length _ { s with depth := List.replicate s.tracks.length 0 } hle dr e2 e3 sl (start_inv' W).1 S
  obtain ⟨D, tr, L2, o1, F⟩ := outs_flat W hws hN hcap r2 r3 r4 r5
  have hcapD : ∀ b ∈ D.boxes, isCapBox b.obj = false := by
    intro b hb
    have : b.obj ∈ d.boxes := by rw [← (flat_shape F).1]; exact List.mem_map_of_mem hb
    rw [Diagram.boxes] at this
    obtain ⟨l, hl, e⟩ := List.mem_map.1 this
    rw [← e]; exact hcapL l hl
  refine ⟨D, _, _, _, tr, L2, F, hcapD, ?_⟩
  intro sx sy px py
  have hx : D.xs ≠ [] := by
    obtain ⟨b, hb, _⟩ := F.first
    intro h
    rw [Drawable.xs, List.append_eq_nil_iff, List.map_eq_nil_iff] at h
    rw [h.1] at hb; simp at hb
  obtain ⟨D1, hD1⟩ : ∃ D1, moveToOrigin D = .ok D1 := by
    rw [moveToOrigin, if_neg hx]; exact ⟨_, rfl⟩
  have hx1 : D1.xs ≠ [] := by
    rw [moveToOrigin, if_neg hx] at hD1
    injection hD1 with hD1
    rw [← hD1]
    intro h
    apply hx
    simpa [Drawable.xs, Drawable.translate] using h
  obtain ⟨r, hr⟩ : ∃ r, scaleAndPad sx sy px py D1 = .ok r := by
    rw [scaleAndPad, if_neg hx1]; exact ⟨_, rfl⟩
  refine ⟨r, ?_, final_of F.own F.n0le (flat_min F) hD1 hr⟩
  rw [drawPregroup, if_neg (by simp [hp]), fromPregroup, e1, split_words [] ws M e3]
  simp only [afterWords, hs, r1, o1, hD1, hr]

/-! ## C106 -/

section
variable {d : GDiagram} {sx sy px py : ℚ} {r : Drawable Ob Box}

theorem ok_cases (h : drawPregroup sx sy px py d = .ok r) (w : d.WT) : isPregroup d = true ∧ ∃ b ∈ d.boxes, b.cod ≠ [] := by
  have hp : isPregroup d = true := by
    by_contra hp
    rw [drawPregroup, if_pos (by simpa using hp)] at h
    exact absurd h (by simp)
  refine ⟨hp, ?_⟩
  by_contra hno
  push Not at hno
  have hdom : d.dom = [] := by
    unfold isPregroup at hp
    split_ifs at hp with h
    simpa using h
  have hlp : isPregroupLoop true d.layers = true := by
    unfold isPregroup at hp
    split_ifs at hp with h
    exact hp
  have hch : Diagram.Chain [] d.layers d.cod := by
    have := w
    unfold Diagram.WT at this
    rw [hdom] at this; exact this
  obtain ⟨ws, M, e1, e2, e3⟩ := loop_true hch hlp
  obtain ⟨W0, S0⟩ := words_start d.layers
  obtain ⟨W, S, sl, dr⟩ := words_spec (M := M) ws [] 0 _ (by rw [e1]; rfl) W0 S0 rfl
  simp only [Nat.zero_add, List.nil_append] at W S sl dr e2
  have ht : tys ws = [] := by
    have : ∀ (ws : List (String × Ty × Int)) (p : Ty), (∀ l ∈ wl p ws, l.box.cod = []) → tys ws = [] := by
      intro ws
      induction ws with
      | nil => intro p _; rfl
      | cons u ws ih =>
        obtain ⟨n, c, z⟩ := u
        intro p h
        rw [wl] at h
        have h1 := h _ (List.mem_cons_self ..)
        have h2 := ih _ (fun l hl => h l (List.mem_cons_of_mem _ hl))
        simp only [Box.cod] at h1
        simp only [tys] at h2
        simp only [tys, List.map_cons, List.flatten_cons, h1, h2, List.append_nil]
    refine this ws [] (fun l hl => hno l.box ?_)
    rw [Diagram.boxes, e1]
    exact List.mem_map_of_mem (List.mem_append_left _ hl)
  have hM : M = [] := by
    cases M with
    | nil => rfl
    | cons l M =>
      have := e2.1
      rw [ht] at this
      rcases e3 l (by simp) with ⟨x, y, r, h⟩ | ⟨x, y, h⟩ <;> simp [Layer.dom, h, BoxSig.dom, Box.dom] at this
  subst hM
  rw [drawPregroup, if_neg (by simp [hp]), fromPregroup, e1, split_words [] ws [] (by simp)] at h
  simp only [afterWords, addGrammars] at h
  rw [addOuts, if_pos] at h
  · simp at h
  · rw [W.tr, List.length_range]
    have : (addWords 0 ⟨⟨[], [], []⟩, [], [], []⟩ (ws.map (fun w => Box.word w.1 w.2.1 w.2.2))).scan.length = 0 := by rw [sl, ht]; rfl
    rw [W.sc, List.length_range] at this
    rw [this]; rfl

/-- C106: `draw_pregroup` raises `ValueError` for a diagram that is not a pregroup diagram and for one without wires, and draws every other. -/
theorem C106_total (w : d.WT) : (∃ r, drawPregroup sx sy px py d = .ok r) ↔ isPregroup d = true ∧ ∃ b ∈ d.boxes, b.cod ≠ [] := by
  constructor
  · rintro ⟨r, h⟩; exact ok_cases h w
  · rintro ⟨hp, hne⟩
    obtain ⟨D, n0, N, X, tr, L, F, _, h⟩ := draw_facts w hp hne
    obtain ⟨r, hr, _⟩ := h sx sy px py
    exact ⟨r, hr⟩

/-- C106: the boxes are those of the diagram in order, the wires join them as in the diagram, and the outputs are last. -/
theorem C106_wires (w : d.WT) (h : drawPregroup sx sy px py d = .ok r) :
    r.boxes.map BoxNode.obj = d.boxes ∧
    r.boxes.map (fun b => (b.obj, b.dom, b.cod)) = boxList 0 d.layers d.layers.length ∧
    r.ends.map (fun e => (e.kind, e.obj)) = endList [] d.layers d.layers.length ++ d.cod.map (fun o => (EndKind.output, o)) ∧
    r.wires = wireList 0 d.layers d.layers.length ++
      (List.range d.cod.length).map (fun p => (endOf 0 d.layers (origin d.layers d.layers.length p), base 0 d.layers d.layers.length + p)) := by
  obtain ⟨hp, hne⟩ := ok_cases h w
  obtain ⟨D, n0, N, X, tr, L, F, _, hall⟩ := draw_facts w hp hne
  obtain ⟨r', hr, cy, Z⟩ := hall sx sy px py
  obtain rfl : r' = r := by rw [hr] at h; injection h
  refine ⟨?_, ?_, by rw [Z.kinds]; exact F.ends, by rw [Z.wires]; exact F.wireEq⟩
  · rw [Z.boxes, ← (flat_shape F).1]; simp [Function.comp_def]
  · rw [Z.boxes, ← F.boxes]; simp [Function.comp_def]

/-- C106: the words stand side by side, two and a half units apart, all at the same height, and the wires of a word leave it at equal distances; all cups and swaps are below. -/
theorem C106_words (w : d.WT) (h : drawPregroup sx sy px py d = .ok r) (hsy : 0 < sy) : ∃ top : ℚ,
    (∀ (k : Nat) (b : BoxNode Box), r.boxes[k]? = some b → b.obj.dom = [] → b.y = top ∧ b.x = px + sx * (5 / 2 * (k : ℚ)) ∧
      ∀ (j c : Nat), b.cod[j]? = some c → r.xAt c = px + sx * (5 / 2 * (k : ℚ) + 2 * ((j : ℚ) + 1) / ((b.obj.cod.length : ℚ) + 1)) ∧ r.yAt c = top - sy / 4) ∧
    ∀ b ∈ r.boxes, b.obj.dom ≠ [] → b.y ≤ top - sy * (3 / 4) := by
  obtain ⟨hp, hne⟩ := ok_cases h w
  obtain ⟨D, n0, N, X, tr, L, F, hcap, hall⟩ := draw_facts w hp hne
  obtain ⟨r', hr, cy, Z⟩ := hall sx sy px py
  obtain rfl : r' = r := by rw [hr] at h; injection h
  refine ⟨cy, ?_, ?_⟩
  · intro k b hb hd
    rw [Z.boxes, List.getElem?_map] at hb
    obtain ⟨c, hc, rfl⟩ := Option.map_eq_some_iff.1 hb
    simp only at hd ⊢
    have hm := List.mem_of_getElem? hc
    obtain ⟨l1, l2⟩ := (flat_shape F).2 c hm
    have hd' : c.dom = [] := by rw [← List.length_eq_zero_iff, l1, hd]; rfl
    obtain ⟨y0, x0, pl⟩ := F.words k c hc hd'
    rw [hcap c hm] at x0
    refine ⟨by rw [y0]; ring, by rw [x0]; simp; ring, ?_⟩
    intro j e he
    have hmem : e ∈ c.cod := List.mem_of_getElem? he
    have hlt : e < D.ends.length := by
      have : e ∈ D.boxes.flatMap (fun b => b.dom ++ b.cod) := List.mem_flatMap.2 ⟨c, hm, List.mem_append_right _ hmem⟩
      rw [F.own] at this
      exact lt_of_lt_of_le (List.mem_range.1 this) F.n0le
    rw [Z.x e hlt, pl j e he, Z.codY c hm e hmem, y0, l2]
    constructor <;> ring
  · intro b hb hd
    rw [Z.boxes] at hb
    obtain ⟨c, hc, rfl⟩ := List.mem_map.1 hb
    simp only at hd ⊢
    have hd' : c.dom ≠ [] := by
      intro h0
      have := ((flat_shape F).2 c hc).1
      rw [h0, List.length_nil] at this
      exact hd (List.length_eq_zero_iff.1 this.symm)
    have := F.nonpos c hc hd'
    nlinarith

theorem owner_y {D : Drawable Ob Box} {n0 N : Nat} {X : Nat → ℚ} {tr : Nat → Nat} {L : Nat → ℚ} {cy : ℚ} (F : Flat d D n0 N X tr L) (Z : Final sx sy px cy D r) : ∀ v ∈ D.wires,
    r.xAt v.1 = sx * X (tr v.1) + px ∧ r.xAt v.2 = sx * X (tr v.2) + px ∧ r.yAt v.1 = sy * L v.1 + cy - sy / 4 ∧
    (((∃ c ∈ D.boxes, v.2 ∈ c.dom) ∧ r.yAt v.2 = sy * L v.2 + cy + sy / 4) ∨ (¬ (∃ c ∈ D.boxes, v.2 ∈ c.dom) ∧ r.yAt v.2 = sy * L v.2 + cy)) := by
  intro v hv
  obtain ⟨h1, h2, h3, h4, ⟨b, hb, hb1⟩, h6⟩ := F.wires v hv
  refine ⟨by rw [Z.x _ h1, (F.x _ h1).1], by rw [Z.x _ h2, (F.x _ h2).1], ?_, ?_⟩
  · rw [Z.codY b hb _ hb1, F.lev b hb _ (List.mem_append_right _ hb1)]
  · by_cases hc : ∃ c ∈ D.boxes, v.2 ∈ c.dom
    · obtain ⟨c, hc1, hc2⟩ := hc
      exact .inl ⟨⟨c, hc1, hc2⟩, by rw [Z.domY c hc1 _ hc2, F.lev c hc1 _ (List.mem_append_left _ hc2)]⟩
    · have hn : n0 ≤ v.2 := by
        rcases h6 with h6 | h6
        · exact absurd h6 hc
        · exact h6
      refine .inr ⟨hc, ?_⟩
      rw [Z.outY _ h2, F.outs _ hn h2]
      intro c hc1 hc2
      have : v.2 ∈ D.boxes.flatMap (fun b => b.dom ++ b.cod) := List.mem_flatMap.2 ⟨c, hc1, hc2⟩
      rw [F.own] at this
      exact absurd (List.mem_range.1 this) (by omega)

/-- C106: all wires go straight down. -/
theorem C106_straight (w : d.WT) (h : drawPregroup sx sy px py d = .ok r) (hsy : 0 < sy) : ∀ v ∈ r.wires, r.xAt v.1 = r.xAt v.2 ∧ r.yAt v.2 + sy / 4 ≤ r.yAt v.1 := by
  obtain ⟨hp, hne⟩ := ok_cases h w
  obtain ⟨D, n0, N, X, tr, L, F, hcap, hall⟩ := draw_facts w hp hne
  obtain ⟨r', hr, cy, Z⟩ := hall sx sy px py
  obtain rfl : r' = r := by rw [hr] at h; injection h
  intro v hv
  rw [Z.wires] at hv
  obtain ⟨h1, h2, h3, h4⟩ := owner_y F Z v hv
  obtain ⟨_, _, g3, g4, _⟩ := F.wires v hv
  rw [h1, h2, h3, g3]
  refine ⟨rfl, ?_⟩
  rcases h4 with ⟨_, h4⟩ | ⟨_, h4⟩ <;> rw [h4] <;> nlinarith

/-- C106: a cup or a swap joins two wires, and is centred between them; the wires of a swap go on at the same places. -/
theorem C106_boxes (w : d.WT) (h : drawPregroup sx sy px py d = .ok r) (hsx : 0 < sx) : ∀ b ∈ r.boxes, b.obj.dom ≠ [] →
    ∃ p q, b.dom = [p, q] ∧ r.xAt p < r.xAt q ∧ b.x = (r.xAt p + r.xAt q) / 2 ∧ r.yAt p = b.y + sy / 4 ∧ r.yAt q = b.y + sy / 4 ∧
      (b.cod = [] ∨ ∃ p' q', b.cod = [p', q'] ∧ r.xAt p' = r.xAt p ∧ r.xAt q' = r.xAt q ∧ r.yAt p' = b.y - sy / 4 ∧ r.yAt q' = b.y - sy / 4) := by
  obtain ⟨hp, hne⟩ := ok_cases h w
  obtain ⟨D, n0, N, X, tr, L, F, hcap, hall⟩ := draw_facts w hp hne
  obtain ⟨r', hr, cy, Z⟩ := hall sx sy px py
  obtain rfl : r' = r := by rw [hr] at h; injection h
  have lt : ∀ c ∈ D.boxes, ∀ i ∈ c.dom ++ c.cod, i < D.ends.length := by
    intro c hc i hi
    have : i ∈ D.boxes.flatMap (fun b => b.dom ++ b.cod) := List.mem_flatMap.2 ⟨c, hc, hi⟩
    rw [F.own] at this
    exact lt_of_lt_of_le (List.mem_range.1 this) F.n0le
  intro b hb hd
  rw [Z.boxes] at hb
  obtain ⟨c, hc, rfl⟩ := List.mem_map.1 hb
  simp only at hd ⊢
  have hd' : c.dom ≠ [] := by
    intro h0
    have := ((flat_shape F).2 c hc).1
    rw [h0, List.length_nil] at this
    exact hd (List.length_eq_zero_iff.1 this.symm)
  obtain ⟨p, q, h1, h2, h3, h4⟩ := F.gram c hc hd'
  have lp := lt c hc p (by simp [h1])
  have lq := lt c hc q (by simp [h1])
  refine ⟨p, q, h1, ?_, ?_, Z.domY c hc p (by simp [h1]), Z.domY c hc q (by simp [h1]), ?_⟩
  · rw [Z.x p lp, Z.x q lq, (F.x p lp).1, (F.x q lq).1]
    have := F.inc _ _ h2 (F.x q lq).2
    nlinarith
  · rw [Z.x p lp, Z.x q lq, (F.x p lp).1, (F.x q lq).1, h3]; ring
  · rcases h4 with h4 | ⟨p', q', h4, h5, h6⟩
    · exact .inl h4
    · have lp' := lt c hc p' (by simp [h4])
      have lq' := lt c hc q' (by simp [h4])
      refine .inr ⟨p', q', h4, ?_, ?_, Z.codY c hc p' (by simp [h4]), Z.codY c hc q' (by simp [h4])⟩
      · rw [Z.x p lp, Z.x p' lp', (F.x p lp).1, (F.x p' lp').1, h5]
      · rw [Z.x q lq, Z.x q' lq', (F.x q lq).1, (F.x q' lq').1, h6]

theorem tr_le {D : Drawable Ob Box} {n0 N : Nat} {X : Nat → ℚ} {tr : Nat → Nat} {L : Nat → ℚ} {cy : ℚ} (F : Flat d D n0 N X tr L) (Z : Final sx sy px cy D r) (hsx : 0 < sx) {i j : Nat}
    (hi : i < D.ends.length) (hj : j < D.ends.length) (h : r.xAt i ≤ r.xAt j) : tr i ≤ tr j := by
  by_contra hn
  have := F.inc _ _ (Nat.lt_of_not_le hn) (F.x i hi).2
  rw [Z.x i hi, Z.x j hj, (F.x i hi).1, (F.x j hj).1] at h
  nlinarith

/-- C106: two cups or swaps are beside each other, or the second one in the diagram is below the first one. -/
theorem C106_apart (w : d.WT) (h : drawPregroup sx sy px py d = .ok r) (hsx : 0 < sx) (hsy : 0 < sy) :
    r.boxes.Pairwise (fun b c => ∀ p q p' q', b.dom = [p, q] → c.dom = [p', q'] → r.xAt q < r.xAt p' ∨ r.xAt q' < r.xAt p ∨ c.y + sy * (3 / 4) ≤ b.y) := by
  obtain ⟨hp, hne⟩ := ok_cases h w
  obtain ⟨D, n0, N, X, tr, L, F, hcap, hall⟩ := draw_facts w hp hne
  obtain ⟨r', hr, cy, Z⟩ := hall sx sy px py
  obtain rfl : r' = r := by rw [hr] at h; injection h
  have lt : ∀ c ∈ D.boxes, ∀ i ∈ c.dom ++ c.cod, i < D.ends.length := by
    intro c hc i hi
    have : i ∈ D.boxes.flatMap (fun b => b.dom ++ b.cod) := List.mem_flatMap.2 ⟨c, hc, hi⟩
    rw [F.own] at this
    exact lt_of_lt_of_le (List.mem_range.1 this) F.n0le
  rw [Z.boxes, List.pairwise_map]
  refine F.pair.imp_of_mem ?_
  intro b c hb hc hbc p q p' q' h1 h2
  simp only at h1 h2 ⊢
  by_cases c1 : r'.xAt q < r'.xAt p'
  · exact .inl c1
  · by_cases c2 : r'.xAt q' < r'.xAt p
    · exact .inr (.inl c2)
    · have t1 := tr_le F Z hsx (lt c hc p' (by simp [h2])) (lt b hb q (by simp [h1])) (not_lt.1 c1)
      have t2 := tr_le F Z hsx (lt b hb p (by simp [h1])) (lt c hc q' (by simp [h2])) (not_lt.1 c2)
      have := hbc p q p' q' h1 h2 t2 t1
      right; right
      nlinarith

/-- C106: no wire runs through a cup or a swap: a wire that is not beside it ends above it, or begins below it. -/
theorem C106_clear (w : d.WT) (h : drawPregroup sx sy px py d = .ok r) (hsx : 0 < sx) (hsy : 0 < sy) :
    ∀ b ∈ r.boxes, ∀ p q, b.dom = [p, q] → ∀ v ∈ r.wires, r.xAt v.1 < r.xAt p ∨ r.xAt q < r.xAt v.1 ∨ b.y + sy / 4 ≤ r.yAt v.2 ∨ r.yAt v.1 ≤ b.y - sy / 4 := by
  obtain ⟨hp, hne⟩ := ok_cases h w
  obtain ⟨D, n0, N, X, tr, L, F, hcap, hall⟩ := draw_facts w hp hne
  obtain ⟨r', hr, cy, Z⟩ := hall sx sy px py
  obtain rfl : r' = r := by rw [hr] at h; injection h
  have lt : ∀ c ∈ D.boxes, ∀ i ∈ c.dom ++ c.cod, i < D.ends.length := by
    intro c hc i hi
    have : i ∈ D.boxes.flatMap (fun b => b.dom ++ b.cod) := List.mem_flatMap.2 ⟨c, hc, hi⟩
    rw [F.own] at this
    exact lt_of_lt_of_le (List.mem_range.1 this) F.n0le
  intro b hb p q h1 v hv
  rw [Z.boxes] at hb
  obtain ⟨c, hc, rfl⟩ := List.mem_map.1 hb
  simp only at h1 ⊢
  rw [Z.wires] at hv
  by_cases c1 : r'.xAt v.1 < r'.xAt p
  · exact .inl c1
  by_cases c2 : r'.xAt q < r'.xAt v.1
  · exact .inr (.inl c2)
  right; right
  obtain ⟨o1, o2, o3, o4⟩ := owner_y F Z v hv
  have hv1 := (F.wires v hv).1
  have t1 := tr_le F Z hsx (lt c hc p (by simp [h1])) hv1 (not_lt.1 c1)
  have t2 := tr_le F Z hsx hv1 (lt c hc q (by simp [h1])) (not_lt.1 c2)
  rcases F.clear c hc p q h1 v hv t1 t2 with ⟨g1, g2⟩ | g
  · left
    rcases o4 with ⟨_, o4⟩ | ⟨o4, _⟩
    · rw [o4]; nlinarith
    · exact absurd g1 o4
  · right
    rw [o3]; nlinarith

end

end Draw
end Lambeq
