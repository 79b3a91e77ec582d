import Verif.Drawing.TextProps

/-!
# C97: printed diagrams show the diagram
-/

namespace Lambeq
namespace TextPrint
set_option linter.unusedSimpArgs false

/-- The name of every type has a character that `rstrip` keeps in the middle. -/
def Visible (ws : List (List Char × Ty)) : Prop := ∀ w ∈ ws, ∀ o ∈ w.2, (middle (obStr o)).isWhitespace = false ∧ middle (obStr o) ≠ Char.ofNat 160

theorem zipIdx_swap (pos : List Nat) : pos.zipIdx.map Prod.swap = (List.range pos.length).map (fun i => (i, pos.getD i 0)) := by
  apply List.ext_getElem
  · simp
  · intro i h1 h2
    simp only [List.length_map, List.length_zipIdx] at h1
    simp [List.getD_eq_getElem?_getD, h1]

theorem pos_mono {pos : List Nat} {g : Nat} (h : pos.Pairwise (fun a b => a + g ≤ b)) : ∀ i ∈ List.range pos.length, ∀ j ∈ List.range pos.length, i < j → pos.getD i 0 + g ≤ pos.getD j 0 := by
  intro i hi j hj hij
  rw [List.mem_range] at hi hj
  rw [List.getD_eq_getElem _ _ hi, List.getD_eq_getElem _ _ hj]
  exact List.pairwise_iff_getElem.1 h i j hi hj hij

theorem range_lt (n : Nat) : (List.range n).Pairwise (· < ·) := List.pairwise_lt_range

/-- C97. The lines are the three of the header and, below, a picture with a column for each type of the words, at least two apart, in which every cup and swap connects neighbouring wires
(those of one layer do not meet), the cups join exactly the pairs of strands that the cups of the diagram join, and the columns that reach the end carry the output strands in order. -/
theorem C97_picture {p : Printer} {d : GDiagram} {lines : List (List Char)} (hd : d.WT) (hn : Named (wordsOf d.boxes)) (hsp : 1 ≤ p.spacing) (h : diagram2str p d = .ok lines) :
    ∃ (pos : List Nat) (layers : List (List Morph)) (w u t : List Char) (rows : List (List Char)),
      lines = w :: u :: t :: rows ∧
      pos.length = ((wordsOf d.boxes).map (fun w => w.2.length)).sum ∧ pos.Pairwise (fun a b => a + 2 ≤ b) ∧
      (∀ l ∈ layers, Sorted l) ∧ Valid (List.range pos.length) layers.flatten ∧
      Picture p.chars (fun i => pos.getD i 0) (List.range pos.length) layers rows ∧
      (joins id layers.flatten).Perm (wiring [] 0 d.layers).1 ∧
      (left (List.range pos.length) layers.flatten).map (final id layers.flatten) = (wiring [] 0 d.layers).2 ∧
      (p.compress = true → Tight layers) ∧
      (p.compress = false → layers = [] :: (colMorphs (List.range pos.length) (morphs d.layers)).map (fun m => [m])) ∧
      (Visible (wordsOf d.boxes) → (pos.zip (shifts p (wordsOf d.boxes))).map (fun e => t.getD (e.1 + e.2) ' ') = (((wordsOf d.boxes).map (fun w => w.2.map obStr)).flatten).map middle) := by
  unfold diagram2str at h
  split_ifs at h with hpg
  simp only [Except.ok.injEq] at h
  have hdom : d.dom = [] ∧ GDiagram.isPregroupLoop true d.layers = true := by
    unfold GDiagram.isPregroup at hpg
    split_ifs at hpg with hc
    exact ⟨by simpa using hc, hpg⟩
  have hok : HeadOk p 2 (wordsOf d.boxes) (header p ⟨[], [], [], []⟩ d.boxes) := by
    rw [header_eq]
    have := head_ok (p := p) (g := 2) (Nat.le_refl _) (by omega) (wordsOf d.boxes) [] ⟨[], [], [], []⟩ (headOk_nil p 2) hn
    simpa using this
  have hwt : Diagram.Chain d.dom d.layers d.cod := hd
  rw [hdom.1] at hwt
  obtain ⟨r1, r2⟩ := pregroup_words d.layers [] d.cod hdom.2 hwt
  have hcount := hok.count
  have hb : (wordsOf d.boxes) = wordsOf (d.layers.map Layer.box) := rfl
  simp only [List.length_nil, Nat.zero_add] at r1 r2
  rw [← hb, ← hcount] at r1 r2
  obtain ⟨k1, k2⟩ := place_all (compress := p.compress) (morphs d.layers) [[]] (List.range (header p ⟨[], [], [], []⟩ d.boxes).pos.length) (by intro l hl; rw [List.mem_singleton.1 hl]; exact ⟨List.Pairwise.nil, by simp⟩)
    (range_lt _) (by rw [List.length_range]; exact r1)
  obtain ⟨v1, v2⟩ := links_col (morphs d.layers) (List.range (header p ⟨[], [], [], []⟩ d.boxes).pos.length) id (range_lt _) (by rw [List.length_range]; exact r1)
  have eqv := k2 (List.range (header p ⟨[], [], [], []⟩ d.boxes).pos.length)
  simp only [List.flatten_cons, List.flatten_nil, List.append_nil, List.nil_append] at eqv
  rw [List.map_id] at v2
  have hval := eqv.valid v1
  have hw : wiring [] 0 d.layers = _ := r2.trans v2
  refine ⟨(header p ⟨[], [], [], []⟩ d.boxes).pos, placeAll p.compress [[]] (List.range (header p ⟨[], [], [], []⟩ d.boxes).pos.length) (morphs d.layers), _, _, _, _, h.symm, hcount, hok.gap, k1, hval, ?_, ?_, ?_, ?_, ?_, ?_⟩
  · show Picture _ _ _ _ (drawAll p.chars _ _)
    rw [zipIdx_swap]
    exact draw_all _ _ (range_lt _) (pos_mono hok.gap) k1 hval
  · rw [hw]
    exact (eqv.joins id).symm
  · rw [hw]
    simp only
    rw [← eqv.left, ← eqv.final]
  · intro hc
    rw [hc]
    refine placeAll_tight _ _ _ ?_
    intro k m hm
    simp at hm
  · intro hc
    rw [hc, placeAll_off]
    rfl
  · intro hv
    rw [← hok.chars]
    apply List.map_congr_left
    intro e he
    refine rstrip_getD ?_
    have hmem : (header p ⟨[], [], [], []⟩ d.boxes).types.getD (e.1 + e.2) ' ' ∈ (((wordsOf d.boxes).map (fun w => w.2.map obStr)).flatten).map middle := by
      rw [← hok.chars]
      exact List.mem_map.2 ⟨e, he, rfl⟩
    obtain ⟨s, hs, hs2⟩ := List.mem_map.1 hmem
    obtain ⟨l, hl, hl2⟩ := List.mem_flatten.1 hs
    obtain ⟨w, hw, rfl⟩ := List.mem_map.1 hl
    obtain ⟨o, ho, rfl⟩ := List.mem_map.1 hl2
    rw [← hs2]
    exact hv w hw o ho

/-- C97. The header: words, underlines and types, each word in a block as wide as the longer of its name and its types; the blocks are `word_spacing` apart. -/
theorem C97_header {p : Printer} {d : GDiagram} {lines : List (List Char)} (hn : ∀ w ∈ wordsOf d.boxes, 1 ≤ w.1.length) (h : diagram2str p d = .ok lines) :
    lines.take 3 = [rstrip (join (List.replicate p.spacing ' ') ((wordsOf d.boxes).map (fun w => center w.1 (width p w.1 w.2) ' '))),
      join (List.replicate p.spacing ' ') ((wordsOf d.boxes).map (fun w => List.replicate (width p w.1 w.2) p.chars.line)),
      rstrip (join (List.replicate p.spacing ' ') ((wordsOf d.boxes).map (fun w => center (join p.sep (w.2.map obStr)) (width p w.1 w.2) ' ')))] := by
  unfold diagram2str at h
  split_ifs at h with hpg
  simp only [Except.ok.injEq] at h
  have := head_lines p (wordsOf d.boxes) [] ⟨[], [], [], []⟩ (by simpa using hn) rfl rfl rfl
  simp only [List.nil_append] at this
  rw [← h, header_eq]
  obtain ⟨h1, h2, h3⟩ := this
  simp only [List.cons_append, List.take_succ_cons, List.take_zero, h1, h2, h3, List.nil_append]

/-- C97. Anything that is not a pregroup diagram raises `ValueError`; every pregroup diagram is printed. -/
theorem C97_only_pregroup (p : Printer) (d : GDiagram) : (GDiagram.isPregroup d = false ↔ diagram2str p d = .error .valueError) ∧ (GDiagram.isPregroup d = true ↔ ∃ lines, diagram2str p d = .ok lines) := by
  unfold diagram2str
  cases GDiagram.isPregroup d <;> simp

/-! ## Examples -/

def n0 : Ob := ⟨"n", 0⟩
def s0 : Ob := ⟨"s", 0⟩

/-- John loves Mary -/
def example1 : GDiagram := ⟨[], [s0], [⟨[], .word "John" [n0] 0, []⟩, ⟨[n0], .word "loves" [⟨"n", 1⟩, s0, ⟨"n", -1⟩] 0, []⟩, ⟨[n0, ⟨"n", 1⟩, s0, ⟨"n", -1⟩], .word "Mary" [n0] 0, []⟩,
  ⟨[], .cup n0 ⟨"n", 1⟩ false, [s0, ⟨"n", -1⟩, n0]⟩, ⟨[s0], .cup ⟨"n", -1⟩ n0 false, []⟩]⟩

def printed : Except PyErr (List (List Char)) → List String
  | .ok ls => ls.map String.ofList
  | .error _ => []

example : example1.WT ∧ Named (wordsOf example1.boxes) ∧ Visible (wordsOf example1.boxes) ∧ (∀ w ∈ wordsOf example1.boxes, 1 ≤ w.1.length) := by
  refine ⟨by decide +kernel, ?_, ?_, ?_⟩
  · unfold Named; decide +kernel
  · unfold Visible; decide +kernel
  · decide +kernel

example : printed (diagram2str ⟨2, false, true, false⟩ example1) = ["John    loves    Mary", "────  ─────────  ────", " n    n.r·s·n.l   n", " ╰─────╯  │  ╰────╯"] := by decide +kernel

/-- A swap, then cups. -/
def example2 : GDiagram := ⟨[], [s0], [⟨[], .word "b" [n0, s0] 0, []⟩, ⟨[n0, s0], .word "c" [⟨"n", 1⟩] 0, []⟩, ⟨[], .swap n0 s0, [⟨"n", 1⟩]⟩, ⟨[s0], .cup n0 ⟨"n", 1⟩ false, []⟩]⟩

example : example2.WT ∧ printed (diagram2str ⟨2, false, true, false⟩ example2) = [" b    c", "───  ───", "n·s  n.r", "╰╮╯   │", "╭╰╮   │", "│ ╰───╯"] := by
  constructor
  · decide +kernel
  · decide +kernel

example : (wiring [] 0 example2.layers) = ([(0, 2)], [1]) ∧ (wiring [] 0 example1.layers) = ([(0, 1), (3, 4)], [2]) := by decide +kernel

/-- C97, refuted: the wires do not always start in the middle of their types. For a name of odd length over types of even length, `str.center` puts the extra space on the left, but the columns are
computed with it on the right. -/
theorem C97_shift_refuted : ∃ (p : Printer) (d : GDiagram), d.WT ∧ p.spacing = 2 ∧ printed (diagram2str p d) = ["abc  a", "───  ─", " np  n", "│    │"] :=
  ⟨⟨2, false, true, false⟩, ⟨[], [⟨"np", 0⟩, n0], [⟨[], .word "abc" [⟨"np", 0⟩] 0, []⟩, ⟨[⟨"np", 0⟩], .word "a" [n0] 0, []⟩]⟩, by decide +kernel, rfl, by decide +kernel⟩

/-- C97: without the shift, each wire starts at the middle character of its type. -/
theorem C97_aligned_partial {p : Printer} {d : GDiagram} {lines : List (List Char)} (hd : d.WT) (hn : Named (wordsOf d.boxes)) (hv : Visible (wordsOf d.boxes)) (hsp : 1 ≤ p.spacing) (h : diagram2str p d = .ok lines)
    (ho : ∀ w ∈ wordsOf d.boxes, ¬ (w.1.length % 2 = 1 ∧ (join p.sep (w.2.map obStr)).length % 2 = 0 ∧ (join p.sep (w.2.map obStr)).length < w.1.length)) :
    ∃ (pos : List Nat) (layers : List (List Morph)), Picture p.chars (fun i => pos.getD i 0) (List.range pos.length) layers (lines.drop 3) ∧
      pos.map (fun x => (lines.getD 2 []).getD x ' ') = (((wordsOf d.boxes).map (fun w => w.2.map obStr)).flatten).map middle := by
  obtain ⟨pos, layers, w, u, t, rows, h1, h2, _, _, _, h3, _, _, _, _, h4⟩ := C97_picture hd hn hsp h
  refine ⟨pos, layers, by rw [h1]; exact h3, ?_⟩
  rw [← h4 hv, h1]
  have hz : shifts p (wordsOf d.boxes) = List.replicate pos.length 0 := by
    rw [List.eq_replicate_iff]
    refine ⟨by rw [shifts_length, h2], ?_⟩
    intro x hx
    obtain ⟨l, hl, hx⟩ := List.mem_flatten.1 hx
    obtain ⟨v, hv, rfl⟩ := List.mem_map.1 hl
    rw [List.eq_of_mem_replicate hx]
    have := ho v hv
    unfold shift width
    rw [if_neg]
    omega
  rw [hz, zip_replicate, List.map_map]
  rfl

/-- C97, refuted: with `word_spacing=0` a swap of neighbouring words is drawn one column too wide, and everything to its right moves. -/
theorem C97_no_spacing_refuted : ∃ (d : GDiagram), d.WT ∧ printed (diagram2str ⟨0, false, true, false⟩ d) = ["abc", "───", "nsn", "╰╮╯│", "╭╰╮│"] :=
  ⟨⟨[], [s0, n0, n0], [⟨[], .word "a" [n0] 0, []⟩, ⟨[n0], .word "b" [s0] 0, []⟩, ⟨[n0, s0], .word "c" [n0] 0, []⟩, ⟨[], .swap n0 s0, [n0]⟩]⟩, by decide +kernel, by decide +kernel⟩

end TextPrint
end Lambeq
