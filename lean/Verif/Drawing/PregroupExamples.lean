import Verif.Drawing.PregroupTheorems

namespace Lambeq
namespace Draw
open DRewrite Diagram GDiagram
set_option linter.unusedSimpArgs false

/-- C106: at the scale 1 (or less) the wires of a word leave it between its left side, at `b.x`, and its right side, at `b.x + 2` (drawing.py:513-518), and with a scale above 4/5 words do not overlap. -/
theorem C106_inside {d : GDiagram} {sx sy px py : ℚ} {r : Drawable Ob Box} (w : d.WT) (h : drawPregroup sx sy px py d = .ok r) (hsx : 0 < sx) (hsy : 0 < sy) :
    (sx ≤ 1 → ∀ b ∈ r.boxes, b.obj.dom = [] → ∀ c ∈ b.cod, b.x < r.xAt c ∧ r.xAt c < b.x + 2) ∧
    (4 / 5 < sx → ∀ (j k : Nat) (b c : BoxNode Box), r.boxes[j]? = some b → r.boxes[k]? = some c → b.obj.dom = [] → c.obj.dom = [] → j < k → b.x + 2 < c.x) := by
  obtain ⟨top, h1, _⟩ := C106_words w h hsy
  have sh := (C106_wires w h).2.1
  constructor
  · intro hle b hb hd c hc
    obtain ⟨k, hk⟩ := List.getElem?_of_mem hb
    obtain ⟨j, hj⟩ := List.getElem?_of_mem hc
    obtain ⟨_, g2, g3⟩ := h1 k b hk hd
    have hlen : b.cod.length = b.obj.cod.length := by
      have : (b.obj, b.dom, b.cod) ∈ boxList 0 d.layers d.layers.length := by
        rw [← sh]; exact List.mem_map.2 ⟨b, hb, rfl⟩
      rw [boxList] at this
      obtain ⟨p, _, e⟩ := List.mem_map.1 this
      simp only [Prod.mk.injEq] at e
      rw [← e.1, ← e.2.2]
      simp [BoxSig.cod]
    have hjl : j < b.obj.cod.length := by
      rw [← hlen]
      exact (List.getElem?_eq_some_iff.1 hj).1
    have fb := frac_bounds hjl
    rw [(g3 j c hj).1, g2]
    have e : 2 * ((j : ℚ) + 1) / ((b.obj.cod.length : ℚ) + 1) = 2 / ((b.obj.cod.length : ℚ) + 1) * ((j : ℚ) + 1) := by ring
    rw [e]
    constructor <;> nlinarith
  · intro hgt j k b c hb hc hbd hcd hjk
    have e1 := (h1 j b hb hbd).2.1
    have e2 := (h1 k c hc hcd).2.1
    rw [e1, e2]
    have : (j : ℚ) + 1 ≤ k := by exact_mod_cast hjk
    nlinarith

/-! ## Examples -/

def nOb : Ob := ⟨"n", 0⟩
def nR : Ob := ⟨"n", 1⟩
def sOb : Ob := ⟨"s", 0⟩

/-- "John sleeps": a cup between the words. -/
def john : GDiagram := ⟨[], [sOb], [⟨[], .word "John" [nOb] 0, []⟩, ⟨[nOb], .word "sleeps" [nR, sOb] 0, []⟩, ⟨[], .cup nOb nR false, [sOb]⟩]⟩

theorem john_wt : john.WT := by decide +kernel

/-- The places of the boxes and ends, and the wires. -/
def places (r : Drawable Ob Box) : List (ℚ × ℚ) × List (ℚ × ℚ) × List (Nat × Nat) := (r.boxes.map (fun b => (b.x, b.y)), r.ends.map (fun e => (e.x, e.y)), r.wires)

theorem ok_of_places {e : Except PErr (Drawable Ob Box)} {v : List (ℚ × ℚ) × List (ℚ × ℚ) × List (Nat × Nat)} (h : e.toOption.map places = some v) : ∃ r, e = .ok r ∧ places r = v := by
  cases e with
  | error x => simp [Except.toOption] at h
  | ok r => exact ⟨r, rfl, by simpa [Except.toOption] using h⟩

/-- The drawing of "John sleeps", and that the theorems apply to it. -/
example : ∃ r, drawPregroup 1 1 0 0 john = .ok r ∧
    places r = ([(0, 5 / 8), (5 / 2, 5 / 8), (25 / 12, -1 / 8)], [(1, 3 / 8), (19 / 6, 3 / 8), (23 / 6, 3 / 8), (1, 1 / 8), (19 / 6, 1 / 8), (23 / 6, -7 / 8)], [(0, 3), (1, 4), (2, 5)]) ∧
    (∀ v ∈ r.wires, r.xAt v.1 = r.xAt v.2 ∧ r.yAt v.2 + 1 / 4 ≤ r.yAt v.1) := by
  obtain ⟨r, h, hv⟩ := ok_of_places (e := drawPregroup 1 1 0 0 john)
    (v := ([(0, 5 / 8), (5 / 2, 5 / 8), (25 / 12, -1 / 8)], [(1, 3 / 8), (19 / 6, 3 / 8), (23 / 6, 3 / 8), (1, 1 / 8), (19 / 6, 1 / 8), (23 / 6, -7 / 8)], [(0, 3), (1, 4), (2, 5)])) (by decide +kernel)
  exact ⟨r, h, hv, C106_straight john_wt h (by norm_num)⟩

/-- Two cups one below the other, after a swap. -/
def crossed : GDiagram := ⟨[], [sOb], [⟨[], .word "a" [nOb, sOb] 0, []⟩, ⟨[nOb, sOb], .word "b" [nR] 0, []⟩, ⟨[nOb], .swap sOb nR, []⟩, ⟨[], .cup nOb nR false, [sOb]⟩]⟩

theorem crossed_wt : crossed.WT := by decide +kernel

example : ∃ r, drawPregroup 1 1 0 0 crossed = .ok r ∧
    r.boxes.Pairwise (fun b c => ∀ p q p' q', b.dom = [p, q] → c.dom = [p', q'] → r.xAt q < r.xAt p' ∨ r.xAt q' < r.xAt p ∨ c.y + 1 * (3 / 4) ≤ b.y) := by
  obtain ⟨r, h⟩ := (C106_total (sx := 1) (sy := 1) (px := 0) (py := 0) crossed_wt).2 (by decide +kernel)
  exact ⟨r, h, C106_apart crossed_wt h (by norm_num) (by norm_num)⟩

/-- C106, refuted: a pregroup diagram of words of empty type cannot be drawn, although it has a word (drawable.py:759, `min` of an empty list). -/
theorem C106_refuted_empty : ∃ d : GDiagram, d.WT ∧ isPregroup d = true ∧ d.layers ≠ [] ∧ drawPregroup 1 1 0 0 d = .error (.py .valueError) := by
  refine ⟨⟨[], [], [⟨[], .word "a" [] 0, []⟩]⟩, by decide +kernel, by decide +kernel, by simp, ?_⟩
  have : ∀ e : Except PErr (Drawable Ob Box), (match e with | .error x => decide (x = PErr.py .valueError) | .ok _ => false) = true → e = .error (.py .valueError) := by
    intro e h
    cases e with
    | error x => rw [of_decide_eq_true h]
    | ok r => simp at h
  exact this _ (by decide +kernel)

/-- C106, refuted: the width of words is not scaled (drawing.py:513-514), so with `scale=(2, 1)` a wire leaves beside its word. -/
theorem C106_refuted_scale : ∃ (d : GDiagram) (r : Drawable Ob Box), d.WT ∧ drawPregroup 2 1 0 0 d = .ok r ∧ ∃ b ∈ r.boxes, b.obj.dom = [] ∧ ∃ c ∈ b.cod, b.x + 2 < r.xAt c := by
  have hw : (⟨[], [nOb, sOb], [⟨[], .word "a" [nOb, sOb] 0, []⟩]⟩ : GDiagram).WT := by decide +kernel
  obtain ⟨r, h⟩ := (C106_total (sx := 2) (sy := 1) (px := 0) (py := 0) hw).2 (by decide +kernel)
  refine ⟨_, r, hw, h, ?_⟩
  obtain ⟨h1, h2, _⟩ := C106_wires hw h
  obtain ⟨top, h3, _⟩ := C106_words hw h (by norm_num)
  have hl : r.boxes.length = 1 := by
    have := congrArg List.length h1
    simpa [Diagram.boxes] using this
  obtain ⟨b, hb⟩ := List.length_eq_one_iff.1 hl
  rw [hb] at h2
  simp [boxList, base, BoxSig.dom, BoxSig.cod, Box.dom, Box.cod, List.range'] at h2
  obtain ⟨g1, g2, g3⟩ := h2
  have hd : b.obj.dom = [] := by rw [g1]; rfl
  obtain ⟨_, k2, k3⟩ := h3 0 b (by rw [hb]; rfl) hd
  have k4 := (k3 1 1 (by rw [g3]; rfl)).1
  refine ⟨b, by rw [hb]; simp, hd, 1, by rw [g3]; simp, ?_⟩
  rw [k4, k2, g1]
  simp [Box.cod]
  norm_num

theorem splitWords_shape {ls : List GLayer} {r : List Box × List GLayer} (h : splitWords ls = .ok r) :
    ∃ W, ls = W ++ r.2 ∧ r.1 = W.map Layer.box ∧ ∀ l ∈ W, l.right = [] ∧ l.box.dom = [] := by
  induction ls generalizing r with
  | nil => simp only [splitWords, Except.ok.injEq] at h; subst h; exact ⟨[], rfl, rfl, by simp⟩
  | cons l ls ih =>
    rw [splitWords] at h
    split at h
    · injection h with h; subst h; exact ⟨[], rfl, rfl, by simp⟩
    · split at h
      · cases h
      · next hc =>
        split at h
        · cases h
        · next r' e =>
          injection h with h
          subst h
          obtain ⟨W, h1, h2, h3⟩ := ih e
          refine ⟨l :: W, by rw [h1]; rfl, by rw [h2]; rfl, ?_⟩
          intro l' hl
          rcases List.mem_cons.1 hl with rfl | hl
          · exact ⟨not_not.1 (fun c => hc (.inl c)), not_not.1 (fun c => hc (.inr c))⟩
          · exact h3 l' hl

theorem addGrammars_shape {s s' : PState} {ls : List GLayer} (h : addGrammars s ls = .ok s') :
    ∀ l ∈ ls, (∃ a b v, l.box = .cup a b v) ∨ ∃ a b, l.box = .swap a b := by
  induction ls generalizing s with
  | nil => simp
  | cons l ls ih =>
    rw [addGrammars] at h
    split at h
    · cases h
    · next s1 e =>
      intro l' hl
      rcases List.mem_cons.1 hl with rfl | hl
      · rw [addGrammar] at e
        split at e
        · rw [placeBox] at e
          split at e
          · cases e
          · cases hb : l'.box with
            | cup a b v => exact .inl ⟨a, b, v, rfl⟩
            | swap a b => exact .inr ⟨a, b, rfl⟩
            | _ => simp only [hb] at e; cases e
        · cases e
      · exact ih h l' hl

/-- C106: the layout itself (without the check of `draw_pregroup`) only accepts diagrams of boxes without inputs, each to the right of everything before it, followed by cups and swaps. -/
theorem C106_accepts {d : GDiagram} {D : Drawable Ob Box} (h : fromPregroup d = .ok D) : ∃ W G, d.layers = W ++ G ∧
    (∀ l ∈ W, l.right = [] ∧ l.box.dom = []) ∧ ∀ l ∈ G, (∃ a b v, l.box = .cup a b v) ∨ ∃ a b, l.box = .swap a b := by
  rw [fromPregroup] at h
  split at h
  · cases h
  · next ws ls e =>
    obtain ⟨W, h1, _, h3⟩ := splitWords_shape e
    refine ⟨W, ls, h1, h3, ?_⟩
    split at h
    · cases h
    · next s es => exact addGrammars_shape es

/-- A word to the left of an open wire is rejected. -/
example : fromPregroup ⟨[], [⟨"n", 0⟩, ⟨"n", 0⟩], [⟨[], .word "a" [⟨"n", 0⟩] 0, []⟩, ⟨[], .word "b" [⟨"n", 0⟩] 0, [⟨"n", 0⟩]⟩]⟩ = .error .notPregroup := rfl

end Draw
end Lambeq
