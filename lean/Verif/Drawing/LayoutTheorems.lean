import Verif.Drawing.Layout
import Mathlib.Tactic.NormNum
import Mathlib.Tactic.Positivity
import Mathlib.Data.List.Basic
import Mathlib.Data.List.GetD

namespace Lambeq
namespace Draw
variable {O B : Type} [BoxSig B O]
set_option linter.unusedSectionVars false
set_option linter.unusedSimpArgs false

/-! ## Stretching -/

/-- Distances do not become smaller, and the order is kept. -/
def Expansive (φ : ℚ → ℚ) : Prop := ∀ u v, u ≤ v → v - u ≤ φ v - φ u

theorem pushLeft_expansive {limit pad : ℚ} (h : 0 ≤ pad) : Expansive (pushLeft limit pad) := by
  intro u v huv
  unfold pushLeft
  split_ifs <;> linarith

theorem pushRight_expansive {limit pad : ℚ} (h : 0 ≤ pad) : Expansive (pushRight limit pad) := by
  intro u v huv
  unfold pushRight
  split_ifs <;> linarith

theorem Expansive.mono {φ : ℚ → ℚ} (h : Expansive φ) {u v : ℚ} (huv : u ≤ v) : φ u ≤ φ v := by
  have := h u v huv; linarith

theorem Expansive.gap {φ : ℚ → ℚ} (h : Expansive φ) {u v c : ℚ} (hc : 0 ≤ c) (huv : u + c ≤ v) : φ u + c ≤ φ v := by
  have := h u v (by linarith); linarith

theorem Expansive.lt {φ : ℚ → ℚ} (h : Expansive φ) {u v c : ℚ} (hc : 0 ≤ c) (huv : u + c < v) : φ u + c < φ v := by
  have := h u v (by linarith); linarith

theorem xAt_mapX {φ : ℚ → ℚ} {D : Drawable O B} {i : Nat} (h : i < D.ends.length) : (D.mapX φ).xAt i = φ (D.xAt i) := by
  simp [Drawable.xAt, Drawable.mapX, List.getElem?_map, List.getElem?_eq_getElem h]

theorem yAt_mapX {φ : ℚ → ℚ} {D : Drawable O B} (i : Nat) : (D.mapX φ).yAt i = D.yAt i := by
  simp only [Drawable.yAt, Drawable.mapX, List.getElem?_map]
  cases D.ends[i]? <;> rfl

theorem map_xAt_mapX {φ : ℚ → ℚ} {D : Drawable O B} {l : List Nat} (h : ∀ i ∈ l, i < D.ends.length) : l.map (D.mapX φ).xAt = (l.map D.xAt).map φ := by
  simp only [List.map_map]
  exact List.map_congr_left (fun i hi => xAt_mapX (h i hi))

/-- The box at its new place. -/
def BoxNode.moved (φ : ℚ → ℚ) (b : BoxNode B) : BoxNode B := { b with x := φ b.x }

theorem points_mapX {φ : ℚ → ℚ} {D : Drawable O B} {b : BoxNode B} (h : ∀ i ∈ b.dom ++ b.cod, i < D.ends.length) :
    (D.mapX φ).points (b.moved φ) = (D.points b).map φ := by
  unfold Drawable.points BoxNode.moved
  by_cases hb : b.cod ++ b.dom = []
  · simp [hb]
  · simp only [hb, if_false]
    exact map_xAt_mapX (fun i hi => h i (by simp only [List.mem_append] at hi ⊢; tauto))

/-! ## Invariants -/

/-- Neighbours are at least a wire's spacing apart. -/
def Gapped (l : List ℚ) : Prop := l.Pairwise (fun a b => a + 5 / 2 ≤ b)

theorem Gapped.map {φ : ℚ → ℚ} (h : Expansive φ) {l : List ℚ} (hl : Gapped l) : Gapped (l.map φ) :=
  List.Pairwise.map φ (fun _ _ hab => h.gap (by norm_num) hab) hl

/-- Left of everything with the room of a ledge. -/
def LeftOf (x : ℚ) (ps : List ℚ) : Prop := ∀ p ∈ ps, x + 1 / 2 < p
def RightOf (x : ℚ) (ps : List ℚ) : Prop := ∀ p ∈ ps, p + 1 / 2 < x
def Apart (ps qs : List ℚ) : Prop := (∀ p ∈ ps, ∀ q ∈ qs, p + 1 < q) ∨ (∀ p ∈ ps, ∀ q ∈ qs, q + 1 < p)

theorem LeftOf.map {φ : ℚ → ℚ} (h : Expansive φ) {x : ℚ} {ps : List ℚ} (hl : LeftOf x ps) : LeftOf (φ x) (ps.map φ) := by
  intro p hp
  obtain ⟨q, hq, rfl⟩ := List.mem_map.1 hp
  exact h.lt (by norm_num) (hl q hq)

theorem RightOf.map {φ : ℚ → ℚ} (h : Expansive φ) {x : ℚ} {ps : List ℚ} (hl : RightOf x ps) : RightOf (φ x) (ps.map φ) := by
  intro p hp
  obtain ⟨q, hq, rfl⟩ := List.mem_map.1 hp
  exact h.lt (by norm_num) (hl q hq)

theorem Apart.map {φ : ℚ → ℚ} (h : Expansive φ) {ps qs : List ℚ} (hl : Apart ps qs) : Apart (ps.map φ) (qs.map φ) := by
  rcases hl with hl | hl
  · left
    intro p hp q hq
    obtain ⟨p', hp', rfl⟩ := List.mem_map.1 hp
    obtain ⟨q', hq', rfl⟩ := List.mem_map.1 hq
    exact h.lt (by norm_num) (hl p' hp' q' hq')
  · right
    intro p hp q hq
    obtain ⟨p', hp', rfl⟩ := List.mem_map.1 hp
    obtain ⟨q', hq', rfl⟩ := List.mem_map.1 hq
    exact h.lt (by norm_num) (hl p' hp' q' hq')

structure Inv (D : Drawable O B) (scan : List Nat) : Prop where
  scan_lt : ∀ i ∈ scan, i < D.ends.length
  box_lt : ∀ b ∈ D.boxes, ∀ i ∈ b.dom ++ b.cod, i < D.ends.length
  wire_lt : ∀ w ∈ D.wires, w.1 < D.ends.length ∧ w.2 < D.ends.length
  vert : ∀ w ∈ D.wires, D.xAt w.1 = D.xAt w.2
  gap : Gapped (scan.map D.xAt)
  boxGap : ∀ b ∈ D.boxes, Gapped (b.dom.map D.xAt) ∧ Gapped (b.cod.map D.xAt)
  mid : ∀ b ∈ D.boxes, (∃ p ∈ D.points b, p ≤ b.x) ∧ ∃ p ∈ D.points b, b.x ≤ p
  src : ∀ i ∈ scan, D.yAt i = 1 ∨ ∃ b ∈ D.boxes, i ∈ b.cod
  tgt : ∀ w ∈ D.wires, ∃ b ∈ D.boxes, w.2 ∈ b.dom
  boxY : ∀ b ∈ D.boxes, (∀ i ∈ b.dom, D.yAt i = b.y + 1 / 4) ∧ ∀ i ∈ b.cod, D.yAt i = b.y - 1 / 4
  down : ∀ w ∈ D.wires, D.yAt w.2 < D.yAt w.1
  top : ∀ b ∈ D.boxes, b.y ≤ 0

structure Free (D : Drawable O B) (scan : List Nat) : Prop where
  sep : D.boxes.Pairwise (fun b c => Apart (D.points b) (D.points c) ∨ c.y + 1 ≤ b.y)
  clear : ∀ w ∈ D.wires, ∀ b ∈ D.boxes, LeftOf (D.xAt w.1) (D.points b) ∨ RightOf (D.xAt w.1) (D.points b) ∨ D.yAt w.1 ≤ b.y - 1 / 4 ∨ b.y + 1 / 4 ≤ D.yAt w.2
  opened : ∀ i ∈ scan, ∀ b ∈ D.boxes, LeftOf (D.xAt i) (D.points b) ∨ RightOf (D.xAt i) (D.points b) ∨ D.yAt i ≤ b.y - 1 / 4

theorem mem_mapX {φ : ℚ → ℚ} {D : Drawable O B} {b : BoxNode B} : b ∈ (D.mapX φ).boxes ↔ ∃ c ∈ D.boxes, c.moved φ = b := by
  simp [Drawable.mapX, BoxNode.moved]

theorem Inv.mapX {φ : ℚ → ℚ} (h : Expansive φ) {D : Drawable O B} {scan : List Nat} (I : Inv D scan) : Inv (D.mapX φ) scan := by
  have len : (D.mapX φ).ends.length = D.ends.length := by simp [Drawable.mapX]
  refine ⟨?_, ?_, ?_, ?_, ?_, ?_, ?_, ?_, ?_, ?_, ?_, ?_⟩
  · rw [len]; exact I.scan_lt
  · intro b hb
    obtain ⟨c, hc, rfl⟩ := mem_mapX.1 hb
    rw [len]; exact I.box_lt c hc
  · rw [len]; exact I.wire_lt
  · intro w hw
    rw [xAt_mapX (I.wire_lt w hw).1, xAt_mapX (I.wire_lt w hw).2, I.vert w hw]
  · rw [map_xAt_mapX I.scan_lt]; exact I.gap.map h
  · intro b hb
    obtain ⟨c, hc, rfl⟩ := mem_mapX.1 hb
    have := I.box_lt c hc
    refine ⟨?_, ?_⟩
    · show Gapped (c.dom.map _)
      rw [map_xAt_mapX (fun i hi => this i (by simp [hi]))]; exact (I.boxGap c hc).1.map h
    · show Gapped (c.cod.map _)
      rw [map_xAt_mapX (fun i hi => this i (by simp [hi]))]; exact (I.boxGap c hc).2.map h
  · intro b hb
    obtain ⟨c, hc, rfl⟩ := mem_mapX.1 hb
    obtain ⟨⟨p, hp, hpx⟩, q, hq, hqx⟩ := I.mid c hc
    rw [points_mapX (I.box_lt c hc)]
    exact ⟨⟨φ p, List.mem_map_of_mem hp, h.mono hpx⟩, φ q, List.mem_map_of_mem hq, h.mono hqx⟩
  · intro i hi
    rw [yAt_mapX]
    rcases I.src i hi with h1 | ⟨b, hb, hbi⟩
    · exact .inl h1
    · exact .inr ⟨b.moved φ, mem_mapX.2 ⟨b, hb, rfl⟩, hbi⟩
  · intro w hw
    obtain ⟨b, hb, hbi⟩ := I.tgt w hw
    exact ⟨b.moved φ, mem_mapX.2 ⟨b, hb, rfl⟩, hbi⟩
  · intro b hb
    obtain ⟨c, hc, rfl⟩ := mem_mapX.1 hb
    simp only [yAt_mapX]
    exact I.boxY c hc
  · intro w hw
    simp only [yAt_mapX]
    exact I.down w hw
  · intro b hb
    obtain ⟨c, hc, rfl⟩ := mem_mapX.1 hb
    exact I.top c hc

theorem Free.mapX {φ : ℚ → ℚ} (h : Expansive φ) {D : Drawable O B} {scan : List Nat} (I : Inv D scan) (F : Free D scan) : Free (D.mapX φ) scan := by
  refine ⟨?_, ?_, ?_⟩
  · show (D.boxes.map (BoxNode.moved φ)).Pairwise _
    rw [List.pairwise_map]
    refine List.Pairwise.imp_of_mem ?_ F.sep
    intro b c hb hc hbc
    rw [points_mapX (I.box_lt b hb), points_mapX (I.box_lt c hc)]
    exact hbc.imp (fun x => x.map h) id
  · intro w hw b hb
    obtain ⟨c, hc, rfl⟩ := mem_mapX.1 hb
    rw [points_mapX (I.box_lt c hc), xAt_mapX (I.wire_lt w hw).1, yAt_mapX, yAt_mapX]
    exact (F.clear w hw c hc).imp (fun x => x.map h) (Or.imp (fun x => x.map h) id)
  · intro i hi b hb
    obtain ⟨c, hc, rfl⟩ := mem_mapX.1 hb
    rw [points_mapX (I.box_lt c hc), xAt_mapX (I.scan_lt i hi), yAt_mapX]
    exact (F.opened i hi c hc).imp (fun x => x.map h) (Or.imp (fun x => x.map h) id)

/-! ## Making space -/

/-- The box at `x` fits between its neighbours. -/
structure Fits (D : Drawable O B) (L M R : List Nat) (n : Nat) (x : ℚ) : Prop where
  left : ∀ i ∈ L, D.xAt i ≤ x - halfWidth n
  right : ∀ i ∈ R, x + halfWidth n ≤ D.xAt i
  first : ∀ h : M ≠ [], D.xAt (M.head h) ≤ x
  last : ∀ h : M ≠ [], x ≤ D.xAt (M.getLast h)

theorem halfWidth_pos (n : Nat) : 5 / 2 ≤ halfWidth n := by
  unfold halfWidth spacing
  have : (0 : ℚ) ≤ ((n - 1 : Nat) : ℚ) := Nat.cast_nonneg _
  linarith

theorem Gapped.le_last {l : List ℚ} (h : Gapped l) (hl : l ≠ []) : ∀ p ∈ l, p ≤ l.getLast hl := by
  induction l with
  | nil => exact absurd rfl hl
  | cons a t ih =>
    intro p hp
    cases t with
    | nil => simp at hp; simp [hp]
    | cons b t =>
      have h' := List.pairwise_cons.1 h
      have := ih h'.2 (by simp)
      rw [List.getLast_cons (by simp)]
      rcases List.mem_cons.1 hp with rfl | hp
      · have h1 := h'.1 _ (List.getLast_mem (l := b :: t) (by simp)); linarith
      · exact this p hp

theorem Gapped.head_le {l : List ℚ} (h : Gapped l) (hl : l ≠ []) : ∀ p ∈ l, l.head hl ≤ p := by
  cases l with
  | nil => exact absurd rfl hl
  | cons a t =>
    intro p hp
    rcases List.mem_cons.1 hp with rfl | hp
    · simp
    · have := (List.pairwise_cons.1 h).1 p hp; simp; linarith

/-- The parts of the scan, by their places. -/
theorem getD_left {L M R : List Nat} (h : L ≠ []) : (L ++ M ++ R).getD (L.length - 1) 0 = L.getLast h := by
  have : 0 < L.length := List.length_pos_iff.2 h
  rw [List.append_assoc, List.getD_append _ _ _ _ (by omega), List.getD_eq_getElem _ _ (by omega), List.getLast_eq_getElem]

theorem getD_right {L M R : List Nat} (h : R ≠ []) : (L ++ M ++ R).getD (L.length + M.length) 0 = R.head h := by
  cases R with
  | nil => exact absurd rfl h
  | cons a t => rw [List.getD_append_right _ _ _ _ (by simp)]; simp

theorem getD_first {L M R : List Nat} (h : M ≠ []) : (L ++ M ++ R).getD L.length 0 = M.head h := by
  cases M with
  | nil => exact absurd rfl h
  | cons a t => rw [List.append_assoc, List.getD_append_right _ _ _ _ (by simp)]; simp

theorem getD_last {L M R : List Nat} (h : M ≠ []) : (L ++ M ++ R).getD (L.length + M.length - 1) 0 = M.getLast h := by
  have h0 : 0 < M.length := List.length_pos_iff.2 h
  rw [List.append_assoc, List.getD_append_right _ _ _ _ (by omega), List.getD_append _ _ _ _ (by omega), List.getD_eq_getElem _ _ (by omega), List.getLast_eq_getElem]
  congr 1; omega

/-- What the parts of the scan satisfy. -/
structure Split (D : Drawable O B) (L M R : List Nat) : Prop where
  gL : Gapped (L.map D.xAt)
  gM : Gapped (M.map D.xAt)
  gR : Gapped (R.map D.xAt)
  LM : ∀ i ∈ L, ∀ j ∈ M, D.xAt i + 5 / 2 ≤ D.xAt j
  LR : ∀ i ∈ L, ∀ j ∈ R, D.xAt i + 5 / 2 ≤ D.xAt j
  MR : ∀ i ∈ M, ∀ j ∈ R, D.xAt i + 5 / 2 ≤ D.xAt j

theorem Inv.split {D : Drawable O B} {L M R : List Nat} (I : Inv D (L ++ M ++ R)) : Split D L M R := by
  have g := I.gap
  unfold Gapped at g
  simp only [List.map_append, List.pairwise_append, List.mem_append] at g
  obtain ⟨⟨gL, gM, gLM⟩, gR, g3⟩ := g
  exact ⟨gL, gM, gR, fun i hi j hj => gLM _ (List.mem_map_of_mem hi) _ (List.mem_map_of_mem hj),
    fun i hi j hj => g3 _ (.inl (List.mem_map_of_mem hi)) _ (List.mem_map_of_mem hj),
    fun i hi j hj => g3 _ (.inr (List.mem_map_of_mem hi)) _ (List.mem_map_of_mem hj)⟩

theorem Split.le_last {D : Drawable O B} {l : List Nat} (g : Gapped (l.map D.xAt)) (h : l ≠ []) : ∀ i ∈ l, D.xAt i ≤ D.xAt (l.getLast h) := by
  intro i hi
  have := g.le_last (by simp [h]) _ (List.mem_map_of_mem hi)
  rwa [List.getLast_map] at this

theorem Split.head_le {D : Drawable O B} {l : List Nat} (g : Gapped (l.map D.xAt)) (h : l ≠ []) : ∀ i ∈ l, D.xAt (l.head h) ≤ D.xAt i := by
  intro i hi
  have := g.head_le (by simp [h]) _ (List.mem_map_of_mem hi)
  rwa [List.head_map] at this

theorem mapX_id (D : Drawable O B) : D.mapX id = D := by simp [Drawable.mapX]

theorem mapX_mapX (D : Drawable O B) (φ ψ : ℚ → ℚ) : (D.mapX φ).mapX ψ = D.mapX (ψ ∘ φ) := by
  simp [Drawable.mapX, Function.comp_def]

theorem expansive_id : Expansive id := fun _ _ _ => le_refl _

theorem Expansive.comp {φ ψ : ℚ → ℚ} (hψ : Expansive ψ) (hφ : Expansive φ) : Expansive (ψ ∘ φ) := by
  intro u v huv
  have h1 := hφ u v huv
  have h2 := hψ (φ u) (φ v) (by linarith)
  simp only [Function.comp]; linarith

theorem roomLeft_spec {D : Drawable O B} {L M R : List Nat} (I : Inv D (L ++ M ++ R)) (n : Nat) (x : ℚ) :
    (∃ φ, Expansive φ ∧ roomLeft D (L ++ M ++ R) n L.length x = D.mapX φ) ∧
    (∀ i ∈ L, (roomLeft D (L ++ M ++ R) n L.length x).xAt i ≤ x - halfWidth n) ∧
    ∀ i ∈ M ++ R, (roomLeft D (L ++ M ++ R) n L.length x).xAt i = D.xAt i := by
  have S := I.split
  unfold roomLeft
  by_cases hL : L = []
  · subst hL
    exact ⟨⟨id, expansive_id, by simp [mapX_id]⟩, by simp, by simp⟩
  · have hl : L.length ≠ 0 := by simpa using hL
    have hlast := Split.le_last S.gL hL
    rw [getD_left hL]
    split_ifs with h
    · obtain ⟨_, h⟩ := h
      refine ⟨⟨_, pushLeft_expansive (by linarith), rfl⟩, ?_, ?_⟩
      · intro i hi
        rw [xAt_mapX (I.scan_lt i (by simp [hi])), pushLeft, if_pos (hlast i hi)]
        have := hlast i hi
        linarith
      · intro i hi
        rw [xAt_mapX (I.scan_lt i (by simp only [List.mem_append] at hi ⊢; tauto)), pushLeft, if_neg]
        have hm := List.getLast_mem hL
        rcases List.mem_append.1 hi with hi | hi
        · have := S.LM _ hm i hi; linarith
        · have := S.LR _ hm i hi; linarith
    · refine ⟨⟨id, expansive_id, (mapX_id D).symm⟩, ?_, fun _ _ => rfl⟩
      intro i hi
      have := hlast i hi
      have h' : ¬ x - halfWidth n < D.xAt (L.getLast hL) := fun h' => h ⟨hl, h'⟩
      linarith

theorem roomRight_spec {D : Drawable O B} {L M R : List Nat} (I : Inv D (L ++ M ++ R)) (n : Nat) (x : ℚ) :
    (∃ φ, Expansive φ ∧ roomRight D (L ++ M ++ R) M.length n L.length x = D.mapX φ) ∧
    (∀ i ∈ R, x + halfWidth n ≤ (roomRight D (L ++ M ++ R) M.length n L.length x).xAt i) ∧
    ∀ i ∈ L ++ M, (roomRight D (L ++ M ++ R) M.length n L.length x).xAt i = D.xAt i := by
  have S := I.split
  unfold roomRight
  by_cases hR : R = []
  · subst hR
    exact ⟨⟨id, expansive_id, by simp [mapX_id]⟩, by simp, by simp⟩
  · have hl : L.length + M.length < (L ++ M ++ R).length := by
      have := List.length_pos_iff.2 hR
      simp only [List.length_append]; omega
    have hhead := Split.head_le S.gR hR
    rw [getD_right hR]
    split_ifs with h
    · obtain ⟨_, h⟩ := h
      refine ⟨⟨_, pushRight_expansive (by linarith), rfl⟩, ?_, ?_⟩
      · intro i hi
        rw [xAt_mapX (I.scan_lt i (by simp [hi])), pushRight, if_pos (hhead i hi)]
        have := hhead i hi
        linarith
      · intro i hi
        rw [xAt_mapX (I.scan_lt i (by simp only [List.mem_append] at hi ⊢; tauto)), pushRight, if_neg]
        have hm := List.head_mem hR
        rcases List.mem_append.1 hi with hi | hi
        · have := S.LR i hi _ hm; linarith
        · have := S.MR i hi _ hm; linarith
    · refine ⟨⟨id, expansive_id, (mapX_id D).symm⟩, ?_, fun _ _ => rfl⟩
      intro i hi
      have := hhead i hi
      have h' : ¬ D.xAt (R.head hR) < x + halfWidth n := fun h' => h ⟨hl, h'⟩
      linarith

theorem makeSpace_spec {D : Drawable O B} {L M R : List Nat} (I : Inv D (L ++ M ++ R)) (n : Nat) :
    (∃ φ, Expansive φ ∧ (makeSpace D (L ++ M ++ R) M.length n L.length).1 = D.mapX φ) ∧
    Fits (makeSpace D (L ++ M ++ R) M.length n L.length).1 L M R n (makeSpace D (L ++ M ++ R) M.length n L.length).2.1 := by
  unfold makeSpace
  by_cases hs : L ++ M ++ R = []
  · have : L = [] ∧ M = [] ∧ R = [] := by simpa using hs
    obtain ⟨rfl, rfl, rfl⟩ := this
    exact ⟨⟨id, expansive_id, by simp [mapX_id]⟩, ⟨by simp, by simp, by simp, by simp⟩⟩
  · simp only [hs, if_false]
    generalize hx : boxX D (L ++ M ++ R) M.length n L.length = x
    obtain ⟨⟨φ, hφ, e1⟩, l1, s1⟩ := roomLeft_spec I n x
    have I1 : Inv (roomLeft D (L ++ M ++ R) n L.length x) (L ++ M ++ R) := by rw [e1]; exact I.mapX hφ
    obtain ⟨⟨ψ, hψ, e2⟩, r2, s2⟩ := roomRight_spec I1 n x
    refine ⟨⟨ψ ∘ φ, hψ.comp hφ, by rw [e2, e1, mapX_mapX]⟩, ?_, r2, ?_, ?_⟩
    · intro i hi
      rw [s2 i (by simp [hi])]; exact l1 i hi
    · intro hM
      rw [s2 _ (List.mem_append_right _ (List.head_mem hM)), s1 _ (List.mem_append_left _ (List.head_mem hM)), ← hx, boxX]
      have hm : M.length ≠ 0 := by simpa using hM
      rw [if_neg hm, getD_first hM, getD_last hM]
      have := Split.le_last I.split.gM hM _ (List.head_mem hM)
      linarith
    · intro hM
      rw [s2 _ (List.mem_append_right _ (List.getLast_mem hM)), s1 _ (List.mem_append_left _ (List.getLast_mem hM)), ← hx, boxX]
      have hm : M.length ≠ 0 := by simpa using hM
      rw [if_neg hm, getD_first hM, getD_last hM]
      have := Split.le_last I.split.gM hM _ (List.head_mem hM)
      linarith

/-! ## Adding a box -/

theorem minOf_le {l : List ℚ} : ∀ p ∈ l, minOf l ≤ p := by
  induction l with
  | nil => simp
  | cons a t ih =>
    intro p hp
    cases t with
    | nil => simp at hp; simp [minOf, hp]
    | cons b t =>
      simp only [minOf]
      rcases List.mem_cons.1 hp with rfl | hp
      · exact min_le_left _ _
      · exact le_trans (min_le_right _ _) (ih p hp)

theorem le_maxOf {l : List ℚ} : ∀ p ∈ l, p ≤ maxOf l := by
  induction l with
  | nil => simp
  | cons a t ih =>
    intro p hp
    cases t with
    | nil => simp at hp; simp [maxOf, hp]
    | cons b t =>
      simp only [maxOf]
      rcases List.mem_cons.1 hp with rfl | hp
      · exact le_max_left _ _
      · exact le_trans (ih p hp) (le_max_right _ _)

theorem minOf_mem {l : List ℚ} (h : l ≠ []) : minOf l ∈ l := by
  induction l with
  | nil => exact absurd rfl h
  | cons a t ih =>
    cases t with
    | nil => simp [minOf]
    | cons b t =>
      simp only [minOf]
      rcases min_choice a (minOf (b :: t)) with h1 | h1
      · rw [h1]; simp
      · rw [h1]; exact List.mem_cons_of_mem _ (ih (by simp))

theorem maxOf_mem {l : List ℚ} (h : l ≠ []) : maxOf l ∈ l := by
  induction l with
  | nil => exact absurd rfl h
  | cons a t ih =>
    cases t with
    | nil => simp [maxOf]
    | cons b t =>
      simp only [maxOf]
      rcases max_choice a (maxOf (b :: t)) with h1 | h1
      · rw [h1]; simp
      · rw [h1]; exact List.mem_cons_of_mem _ (ih (by simp))

theorem points_ne_nil (D : Drawable O B) (b : BoxNode B) : D.points b ≠ [] := by
  unfold Drawable.points
  split_ifs with h
  · simp
  · simpa using h

/-- The places of the output wires of a new box. -/
def codPoints (D : Drawable O B) (M : List Nat) (keep : Bool) (n : Nat) (x : ℚ) : List ℚ :=
  if keep = true ∧ M.length = n then M.map D.xAt else (List.range n).map (fun i : Nat => x + spacing * ((i : ℚ) - ((n - 1 : Nat) : ℚ) / 2))

/-- The points of a new box. -/
def newPoints (D : Drawable O B) (M : List Nat) (keep : Bool) (n : Nat) (x : ℚ) : List ℚ :=
  if M = [] ∧ n = 0 then [x] else codPoints D M keep n x ++ M.map D.xAt

theorem codPoints_gapped {D : Drawable O B} {M : List Nat} (g : Gapped (M.map D.xAt)) (keep : Bool) (n : Nat) (x : ℚ) : Gapped (codPoints D M keep n x) := by
  unfold codPoints
  split_ifs
  · exact g
  · unfold Gapped
    rw [List.pairwise_map]
    refine List.Pairwise.imp ?_ (List.pairwise_lt_range (n := n))
    intro a b hab
    have : (a : ℚ) + 1 ≤ b := by exact_mod_cast hab
    unfold spacing; linarith

theorem range_point {n i : Nat} (x : ℚ) (h : i < n) : x - halfWidth n + 5 / 2 ≤ x + spacing * ((i : ℚ) - ((n - 1 : Nat) : ℚ) / 2) ∧
    x + spacing * ((i : ℚ) - ((n - 1 : Nat) : ℚ) / 2) ≤ x + halfWidth n - 5 / 2 := by
  have h1 : (i : ℚ) ≤ ((n - 1 : Nat) : ℚ) := by exact_mod_cast Nat.le_sub_one_of_lt h
  have h0 : (0 : ℚ) ≤ i := Nat.cast_nonneg _
  unfold halfWidth spacing
  constructor <;> linarith

theorem newPoints_left {D : Drawable O B} {L M R : List Nat} (S : Split D L M R) {n : Nat} {x : ℚ} (F : Fits D L M R n x) (keep : Bool) :
    ∀ i ∈ L, ∀ q ∈ newPoints D M keep n x, D.xAt i + 5 / 2 ≤ q := by
  intro i hi q hq
  have hl := F.left i hi
  have hw := halfWidth_pos n
  unfold newPoints at hq
  split_ifs at hq with h
  · simp at hq; subst hq; linarith
  · have hM : q ∈ M.map D.xAt → D.xAt i + 5 / 2 ≤ q := by
      intro hq
      obtain ⟨j, hj, rfl⟩ := List.mem_map.1 hq
      exact S.LM i hi j hj
    rcases List.mem_append.1 hq with hq | hq
    · unfold codPoints at hq
      split_ifs at hq with hk
      · exact hM hq
      · obtain ⟨k, hk, rfl⟩ := List.mem_map.1 hq
        have := (range_point x (List.mem_range.1 hk)).1
        linarith
    · exact hM hq

theorem newPoints_right {D : Drawable O B} {L M R : List Nat} (S : Split D L M R) {n : Nat} {x : ℚ} (F : Fits D L M R n x) (keep : Bool) :
    ∀ i ∈ R, ∀ q ∈ newPoints D M keep n x, q + 5 / 2 ≤ D.xAt i := by
  intro i hi q hq
  have hl := F.right i hi
  have hw := halfWidth_pos n
  unfold newPoints at hq
  split_ifs at hq with h
  · simp at hq; subst hq; linarith
  · have hM : q ∈ M.map D.xAt → q + 5 / 2 ≤ D.xAt i := by
      intro hq
      obtain ⟨j, hj, rfl⟩ := List.mem_map.1 hq
      exact S.MR j hj i hi
    rcases List.mem_append.1 hq with hq | hq
    · unfold codPoints at hq
      split_ifs at hq with hk
      · exact hM hq
      · obtain ⟨k, hk, rfl⟩ := List.mem_map.1 hq
        have := (range_point x (List.mem_range.1 hk)).2
        linarith
    · exact hM hq

theorem codPoints_sub {D : Drawable O B} {M : List Nat} {keep : Bool} {n : Nat} {x : ℚ} : ∀ q ∈ codPoints D M keep n x, q ∈ newPoints D M keep n x := by
  intro q hq
  unfold newPoints
  split_ifs with h
  · obtain ⟨rfl, rfl⟩ := h
    simp [codPoints] at hq
  · simp [hq]

theorem newPoints_edges {D : Drawable O B} {L M R : List Nat} (S : Split D L M R) {n : Nat} {x : ℚ} (keep : Bool) :
    ∀ q ∈ newPoints D M keep n x, leftEdge D (L ++ M ++ R) M.length n L.length x + 1 / 2 ≤ q ∧ q + 1 / 2 ≤ rightEdge D (L ++ M ++ R) M.length n L.length x := by
  intro q hq
  have hM : q ∈ M.map D.xAt → leftEdge D (L ++ M ++ R) M.length n L.length x + 1 / 2 ≤ q ∧ q + 1 / 2 ≤ rightEdge D (L ++ M ++ R) M.length n L.length x := by
    intro hq
    obtain ⟨j, hj, rfl⟩ := List.mem_map.1 hq
    have hne : M ≠ [] := List.ne_nil_of_mem hj
    have hm : M.length ≠ 0 := by simpa using hne
    have h1 := Split.head_le S.gM hne j hj
    have h2 := Split.le_last S.gM hne j hj
    simp only [leftEdge, rightEdge, if_neg hm, getD_first hne, getD_last hne]
    have a1 : min (D.xAt (M.head hne)) x ≤ D.xAt (M.head hne) := min_le_left _ _
    have a2 : D.xAt (M.getLast hne) ≤ max (D.xAt (M.getLast hne)) x := le_max_left _ _
    have b1 := min_le_right (x - spacing * ((n - 1 : Nat) : ℚ) / 2) (min (D.xAt (M.head hne)) x)
    have b2 := le_max_right (x + spacing * (((n - 1 : Nat) : ℚ) - ((n - 1 : Nat) : ℚ) / 2)) (max (D.xAt (M.getLast hne)) x)
    unfold ledge
    split_ifs <;> constructor <;> linarith
  unfold newPoints at hq
  split_ifs at hq with h
  · simp at hq; subst hq
    obtain ⟨rfl, rfl⟩ := h
    simp [leftEdge, rightEdge, ledge]
  · rcases List.mem_append.1 hq with hq | hq
    · unfold codPoints at hq
      split_ifs at hq with hk
      · exact hM hq
      · obtain ⟨k, hk, rfl⟩ := List.mem_map.1 hq
        have hkn := List.mem_range.1 hk
        have hn : n ≠ 0 := by omega
        have h1 : (k : ℚ) ≤ ((n - 1 : Nat) : ℚ) := by exact_mod_cast Nat.le_sub_one_of_lt hkn
        have h0 : (0 : ℚ) ≤ k := Nat.cast_nonneg _
        simp only [leftEdge, rightEdge, if_neg hn]
        have b1 := min_le_left (x - spacing * ((n - 1 : Nat) : ℚ) / 2) (if M.length = 0 then x else min (D.xAt ((L ++ M ++ R).getD L.length 0)) x)
        have b2 := le_max_left (x + spacing * (((n - 1 : Nat) : ℚ) - ((n - 1 : Nat) : ℚ) / 2)) (if M.length = 0 then x else max (D.xAt ((L ++ M ++ R).getD (L.length + M.length - 1) 0)) x)
        unfold ledge
        unfold spacing at *
        constructor <;> linarith
    · exact hM hq

theorem newPoints_mid {D : Drawable O B} {L M R : List Nat} {n : Nat} {x : ℚ} (F : Fits D L M R n x) (keep : Bool) :
    (∃ p ∈ newPoints D M keep n x, p ≤ x) ∧ ∃ p ∈ newPoints D M keep n x, x ≤ p := by
  by_cases hM : M = []
  · by_cases hn : n = 0
    · simp [newPoints, hM, hn]
    · have hk : ¬ (keep = true ∧ M.length = n) := by
        subst hM; simp; intro _ h; exact hn h.symm
      have hc : codPoints D M keep n x = (List.range n).map (fun i : Nat => x + spacing * ((i : ℚ) - ((n - 1 : Nat) : ℚ) / 2)) := by rw [codPoints, if_neg hk]
      have h0 : (0 : ℚ) ≤ ((n - 1 : Nat) : ℚ) := Nat.cast_nonneg _
      refine ⟨⟨_, codPoints_sub _ (by rw [hc]; exact List.mem_map_of_mem (List.mem_range.2 (by omega : 0 < n))), ?_⟩,
        ⟨_, codPoints_sub _ (by rw [hc]; exact List.mem_map_of_mem (List.mem_range.2 (by omega : n - 1 < n))), ?_⟩⟩
      · unfold spacing; push_cast; linarith
      · unfold spacing; linarith
  · have hsub : ∀ i ∈ M, D.xAt i ∈ newPoints D M keep n x := by
      intro i hi
      unfold newPoints
      rw [if_neg (by tauto)]
      exact List.mem_append_right _ (List.mem_map_of_mem hi)
    exact ⟨⟨_, hsub _ (List.head_mem hM), F.first hM⟩, ⟨_, hsub _ (List.getLast_mem hM), F.last hM⟩⟩

theorem fallY_le {D : Drawable O B} {l r : ℚ} (bs : List (BoxNode B)) : ∀ y0 : ℚ,
    bs.foldl (fun y b => if (D.xLims b).1 > r ∨ (D.xLims b).2 < l then y else min y (b.y - 1)) y0 ≤ y0 ∧
    ∀ b ∈ bs, (D.xLims b).1 > r ∨ (D.xLims b).2 < l ∨
      bs.foldl (fun y b => if (D.xLims b).1 > r ∨ (D.xLims b).2 < l then y else min y (b.y - 1)) y0 ≤ b.y - 1 := by
  induction bs with
  | nil => intro y0; simp
  | cons c bs ih =>
    intro y0
    simp only [List.foldl_cons]
    obtain ⟨h1, h2⟩ := ih (if (D.xLims c).1 > r ∨ (D.xLims c).2 < l then y0 else min y0 (c.y - 1))
    refine ⟨?_, ?_⟩
    · refine le_trans h1 ?_
      split_ifs
      · exact le_refl _
      · exact min_le_left _ _
    · intro b hb
      rcases List.mem_cons.1 hb with rfl | hb
      · by_cases hc : (D.xLims b).1 > r ∨ (D.xLims b).2 < l
        · tauto
        · rw [if_neg hc] at h1 ⊢
          exact .inr (.inr (le_trans h1 (min_le_right _ _)))
      · exact h2 b hb

theorem apart_of_edges {D : Drawable O B} {b : BoxNode B} {l r : ℚ} {qs : List ℚ} (hq : ∀ q ∈ qs, l + 1 / 2 ≤ q ∧ q + 1 / 2 ≤ r)
    (h : (D.xLims b).1 > r ∨ (D.xLims b).2 < l) : Apart (D.points b) qs := by
  unfold Drawable.xLims ledge at h
  rcases h with h | h
  · right
    intro p hp q hq'
    have h1 := minOf_le p hp
    have h2 := (hq q hq').2
    simp only at h; linarith
  · left
    intro p hp q hq'
    have h1 := le_maxOf p hp
    have h2 := (hq q hq').1
    simp only at h; linarith

section AddBox
variable {D : Drawable O B} {L M R : List Nat} {keep : B → Bool} {box : B} {x y : ℚ}

theorem drop_scan : (L ++ M ++ R).drop L.length = M ++ R := by simp
theorem scan_getD {i : Nat} (h : i < M.length) : (L ++ M ++ R).getD (L.length + i) 0 = M[i] := by
  rw [List.append_assoc, List.getD_append_right _ _ _ _ (by omega), List.getD_append _ _ _ _ (by omega), List.getD_eq_getElem _ _ (by omega)]
  congr 1; omega

theorem domEnds_length (hm : (BoxSig.dom box).length = M.length) : (domEnds D (L ++ M ++ R) (BoxSig.dom box) L.length y).length = M.length := by
  rw [domEnds, drop_scan]; simp [hm]

theorem codEnds_length (k : Bool) (m : Nat) (ty : List O) (off : Nat) : (codEnds D (L ++ M ++ R) k m ty off x y).length = ty.length := by simp [codEnds]

theorem ends_length (hm : (BoxSig.dom box).length = M.length) : (addBox D (L ++ M ++ R) keep box L.length x y).1.ends.length = D.ends.length + M.length + (BoxSig.cod box).length := by
  simp only [addBox, List.length_append, domEnds_length hm, codEnds_length]

theorem xAt_old {i : Nat} (h : i < D.ends.length) : (addBox D (L ++ M ++ R) keep box L.length x y).1.xAt i = D.xAt i := by
  simp only [Drawable.xAt, addBox, List.append_assoc, List.getElem?_append_left h]

theorem yAt_old {i : Nat} (h : i < D.ends.length) : (addBox D (L ++ M ++ R) keep box L.length x y).1.yAt i = D.yAt i := by
  simp only [Drawable.yAt, addBox, List.append_assoc, List.getElem?_append_left h]

theorem ends_dom (hm : (BoxSig.dom box).length = M.length) {k : Nat} (hk : k < M.length) :
    (addBox D (L ++ M ++ R) keep box L.length x y).1.ends[D.ends.length + k]? = some ⟨.dom, (BoxSig.dom box)[k]'(by omega), D.xAt M[k], y + halfHeight⟩ := by
  simp only [addBox]
  rw [List.append_assoc D.ends, List.getElem?_append_right (by omega), List.getElem?_append_left (by rw [domEnds_length hm]; omega)]
  simp only [domEnds, drop_scan, List.getElem?_map, Nat.add_sub_cancel_left]
  rw [List.getElem?_eq_getElem (by simp; omega)]
  simp [List.getElem_append_left hk]

theorem ends_cod (hm : (BoxSig.dom box).length = M.length) {k : Nat} (hk : k < (BoxSig.cod box).length) :
    (addBox D (L ++ M ++ R) keep box L.length x y).1.ends[D.ends.length + M.length + k]? =
      some ⟨.cod, (BoxSig.cod box)[k], codX D (L ++ M ++ R) (keep box) M.length (BoxSig.cod box).length L.length x k, y - halfHeight⟩ := by
  simp only [addBox]
  rw [List.append_assoc D.ends, List.getElem?_append_right (by omega), List.getElem?_append_right (by rw [domEnds_length hm]; omega), domEnds_length hm]
  simp only [codEnds, hm, List.getElem?_map]
  have : D.ends.length + M.length + k - D.ends.length - M.length = k := by omega
  rw [this, List.getElem?_eq_getElem (by simp; omega)]
  simp

theorem xs_dom (hm : (BoxSig.dom box).length = M.length) : (List.range' D.ends.length M.length).map (addBox D (L ++ M ++ R) keep box L.length x y).1.xAt = M.map D.xAt := by
  apply List.ext_getElem
  · simp
  · intro k h1 h2
    simp only [List.length_map] at h2
    simp only [List.getElem_map, List.getElem_range', Nat.one_mul]
    rw [Drawable.xAt, ends_dom hm h2]

theorem xs_cod (hm : (BoxSig.dom box).length = M.length) :
    (List.range' (D.ends.length + M.length) (BoxSig.cod box).length).map (addBox D (L ++ M ++ R) keep box L.length x y).1.xAt = codPoints D M (keep box) (BoxSig.cod box).length x := by
  apply List.ext_getElem
  · unfold codPoints
    split_ifs with h
    · simp [h.2]
    · simp
  · intro k h1 h2
    simp only [List.length_map, List.length_range'] at h1
    simp only [List.getElem_map, List.getElem_range', Nat.one_mul]
    rw [Drawable.xAt, ends_cod hm h1]
    simp only [codX, codPoints]
    by_cases h : keep box = true ∧ M.length = (BoxSig.cod box).length
    · simp only [if_pos h, List.getElem_map]
      rw [scan_getD (by omega)]
    · simp only [if_neg h, List.getElem_map, List.getElem_range]

theorem ys_dom (hm : (BoxSig.dom box).length = M.length) : ∀ i ∈ List.range' D.ends.length M.length, (addBox D (L ++ M ++ R) keep box L.length x y).1.yAt i = y + 1 / 4 := by
  intro i hi
  obtain ⟨k, hk, rfl⟩ := List.mem_range'.1 hi
  rw [Nat.one_mul, Drawable.yAt, ends_dom hm hk]; rfl

theorem ys_cod (hm : (BoxSig.dom box).length = M.length) : ∀ i ∈ List.range' (D.ends.length + M.length) (BoxSig.cod box).length, (addBox D (L ++ M ++ R) keep box L.length x y).1.yAt i = y - 1 / 4 := by
  intro i hi
  obtain ⟨k, hk, rfl⟩ := List.mem_range'.1 hi
  rw [Nat.one_mul, Drawable.yAt, ends_cod hm hk]; rfl

theorem points_old (I : Inv D (L ++ M ++ R)) {b : BoxNode B} (hb : b ∈ D.boxes) : (addBox D (L ++ M ++ R) keep box L.length x y).1.points b = D.points b := by
  unfold Drawable.points
  split_ifs
  · rfl
  · refine List.map_congr_left (fun i hi => xAt_old (I.box_lt b hb i ?_))
    simp only [List.mem_append] at hi ⊢; tauto

/-- The new node. -/
def newNode (D : Drawable O B) (M : List Nat) (box : B) (x y : ℚ) : BoxNode B :=
  ⟨box, x, y, List.range' D.ends.length M.length, List.range' (D.ends.length + M.length) (BoxSig.cod box).length⟩

theorem boxes_new (hm : (BoxSig.dom box).length = M.length) : (addBox D (L ++ M ++ R) keep box L.length x y).1.boxes = D.boxes ++ [newNode D M box x y] := by
  simp only [addBox, newNode, hm]

theorem wires_new (hm : (BoxSig.dom box).length = M.length) : (addBox D (L ++ M ++ R) keep box L.length x y).1.wires = D.wires ++ M.zip (List.range' D.ends.length M.length) := by
  simp only [addBox, hm, drop_scan, List.take_left']

theorem scan_new (hm : (BoxSig.dom box).length = M.length) :
    (addBox D (L ++ M ++ R) keep box L.length x y).2 = L ++ List.range' (D.ends.length + M.length) (BoxSig.cod box).length ++ R := by
  simp only [addBox, hm]
  congr 1
  · simp
  · rw [← List.length_append, List.drop_left']
    rfl

theorem points_new (hm : (BoxSig.dom box).length = M.length) : (addBox D (L ++ M ++ R) keep box L.length x y).1.points (newNode D M box x y) = newPoints D M (keep box) (BoxSig.cod box).length x := by
  unfold Drawable.points newPoints newNode
  by_cases h : M = [] ∧ (BoxSig.cod box).length = 0
  · rw [if_pos (by simp [h.1, h.2]), if_pos h]
  · rw [if_neg h, if_neg, List.map_append, xs_dom hm, xs_cod hm]
    intro h2
    simp only [List.append_eq_nil_iff, List.range'_eq_nil_iff] at h2
    exact h ⟨by simpa using h2.2, h2.1⟩

theorem addBox_inv (I : Inv D (L ++ M ++ R)) (hm : (BoxSig.dom box).length = M.length) (F : Fits D L M R (BoxSig.cod box).length x)
    (hy : y ≤ 0) (hp : M ≠ [] → ∀ b ∈ D.boxes, Apart (D.points b) (newPoints D M (keep box) (BoxSig.cod box).length x) ∨ y + 1 ≤ b.y) :
    Inv (addBox D (L ++ M ++ R) keep box L.length x y).1 (addBox D (L ++ M ++ R) keep box L.length x y).2 := by
  have S := I.split
  have len := ends_length (D := D) (L := L) (R := R) (keep := keep) (x := x) (y := y) hm
  have wire_cases : ∀ w ∈ M.zip (List.range' D.ends.length M.length), ∃ k, ∃ h : k < M.length, w = (M[k], D.ends.length + k) := by
    intro w hw
    obtain ⟨k, hk, rfl⟩ := List.getElem_of_mem hw
    simp only [List.length_zip, List.length_range', Nat.min_self] at hk
    exact ⟨k, hk, by simp⟩
  have mlt : ∀ k (h : k < M.length), M[k] < D.ends.length := fun k h => I.scan_lt _ (by simp)
  rw [scan_new hm]
  refine ⟨?_, ?_, ?_, ?_, ?_, ?_, ?_, ?_, ?_, ?_, ?_, ?_⟩
  · intro i hi
    rw [len]
    simp only [List.mem_append] at hi
    rcases hi with (hi | hi) | hi
    · have := I.scan_lt i (by simp [hi]); omega
    · have := List.mem_range'.1 hi; omega
    · have := I.scan_lt i (by simp [hi]); omega
  · intro b hb i hi
    rw [len]
    rw [boxes_new hm] at hb
    rcases List.mem_append.1 hb with hb | hb
    · have := I.box_lt b hb i hi; omega
    · rw [List.mem_singleton.1 hb] at hi
      simp only [newNode, List.mem_append] at hi
      rcases hi with hi | hi <;> have := List.mem_range'.1 hi <;> omega
  · intro w hw
    rw [len]
    rw [wires_new hm] at hw
    rcases List.mem_append.1 hw with hw | hw
    · have := I.wire_lt w hw; omega
    · obtain ⟨k, hk, rfl⟩ := wire_cases w hw
      have := mlt k hk
      simp only; omega
  · intro w hw
    rw [wires_new hm] at hw
    rcases List.mem_append.1 hw with hw | hw
    · rw [xAt_old (I.wire_lt w hw).1, xAt_old (I.wire_lt w hw).2, I.vert w hw]
    · obtain ⟨k, hk, rfl⟩ := wire_cases w hw
      rw [xAt_old (mlt k hk)]
      simp only [Drawable.xAt]
      rw [ends_dom hm hk]
      rfl
  · rw [List.map_append, List.map_append, xs_cod hm, List.map_congr_left (fun i hi => xAt_old (I.scan_lt i (by simp [hi]))),
      List.map_congr_left (l := R) (fun i hi => xAt_old (I.scan_lt i (by simp [hi])))]
    unfold Gapped
    simp only [List.pairwise_append, List.mem_append]
    refine ⟨⟨S.gL, codPoints_gapped S.gM _ _ _, ?_⟩, S.gR, ?_⟩
    · intro a ha q hq
      obtain ⟨i, hi, rfl⟩ := List.mem_map.1 ha
      exact newPoints_left S F _ i hi q (codPoints_sub q hq)
    · rintro a ha b hb
      obtain ⟨j, hj, rfl⟩ := List.mem_map.1 hb
      rcases ha with ha | ha
      · obtain ⟨i, hi, rfl⟩ := List.mem_map.1 ha
        exact S.LR i hi j hj
      · exact newPoints_right S F _ j hj a (codPoints_sub a ha)
  · intro b hb
    rw [boxes_new hm] at hb
    rcases List.mem_append.1 hb with hb | hb
    · have := I.box_lt b hb
      rw [List.map_congr_left (fun i hi => xAt_old (this i (by simp [hi]))), List.map_congr_left (l := b.cod) (fun i hi => xAt_old (this i (by simp [hi])))]
      exact I.boxGap b hb
    · rw [List.mem_singleton.1 hb]
      simp only [newNode]
      rw [xs_dom hm, xs_cod hm]
      exact ⟨S.gM, codPoints_gapped S.gM _ _ _⟩
  · intro b hb
    rw [boxes_new hm] at hb
    rcases List.mem_append.1 hb with hb | hb
    · rw [points_old I hb]; exact I.mid b hb
    · rw [List.mem_singleton.1 hb, points_new hm]
      exact newPoints_mid F _
  · intro i hi
    rw [boxes_new hm]
    simp only [List.mem_append] at hi
    have old : i ∈ L ++ M ++ R → (addBox D (L ++ M ++ R) keep box L.length x y).1.yAt i = 1 ∨ ∃ b ∈ D.boxes ++ [newNode D M box x y], i ∈ b.cod := by
      intro hi
      rw [yAt_old (I.scan_lt i hi)]
      rcases I.src i hi with h | ⟨b, hb, h⟩
      · exact .inl h
      · exact .inr ⟨b, by simp [hb], h⟩
    rcases hi with (hi | hi) | hi
    · exact old (by simp [hi])
    · exact .inr ⟨newNode D M box x y, by simp, hi⟩
    · exact old (by simp [hi])
  · intro w hw
    rw [boxes_new hm]
    rw [wires_new hm] at hw
    rcases List.mem_append.1 hw with hw | hw
    · obtain ⟨b, hb, h⟩ := I.tgt w hw
      exact ⟨b, by simp [hb], h⟩
    · obtain ⟨k, hk, rfl⟩ := wire_cases w hw
      exact ⟨newNode D M box x y, by simp, List.mem_range'.2 ⟨k, hk, by simp⟩⟩
  · intro b hb
    rw [boxes_new hm] at hb
    rcases List.mem_append.1 hb with hb | hb
    · have := I.box_lt b hb
      refine ⟨fun i hi => ?_, fun i hi => ?_⟩
      · rw [yAt_old (this i (by simp [hi]))]; exact (I.boxY b hb).1 i hi
      · rw [yAt_old (this i (by simp [hi]))]; exact (I.boxY b hb).2 i hi
    · rw [List.mem_singleton.1 hb]
      exact ⟨ys_dom hm, ys_cod hm⟩
  · intro w hw
    rw [wires_new hm] at hw
    rcases List.mem_append.1 hw with hw | hw
    · rw [yAt_old (I.wire_lt w hw).1, yAt_old (I.wire_lt w hw).2]; exact I.down w hw
    · obtain ⟨k, hk, rfl⟩ := wire_cases w hw
      have hne : M ≠ [] := by rintro rfl; simp at hk
      simp only
      rw [yAt_old (mlt k hk), ys_dom hm _ (List.mem_range'.2 ⟨k, hk, by simp⟩)]
      rcases I.src M[k] (by simp) with h | ⟨b, hb, h⟩
      · linarith
      · rw [(I.boxY b hb).2 _ h]
        rcases hp hne b hb with ha | ha
        · exfalso
          have h1 : D.xAt M[k] ∈ D.points b := by
            unfold Drawable.points
            rw [if_neg (by intro h'; simp at h'; rw [h'.1] at h; simp at h)]
            exact List.mem_map_of_mem (by simp [h])
          have h2 : D.xAt M[k] ∈ newPoints D M (keep box) (BoxSig.cod box).length x := by
            unfold newPoints
            rw [if_neg (by tauto)]
            exact List.mem_append_right _ (List.mem_map_of_mem (by simp))
          rcases ha with ha | ha <;> have := ha _ h1 _ h2 <;> linarith
        · linarith
  · intro b hb
    rw [boxes_new hm] at hb
    rcases List.mem_append.1 hb with hb | hb
    · exact I.top b hb
    · rw [List.mem_singleton.1 hb]; exact hy

theorem addBox_free (I : Inv D (L ++ M ++ R)) (C : Free D (L ++ M ++ R)) (hm : (BoxSig.dom box).length = M.length) (F : Fits D L M R (BoxSig.cod box).length x)
    (hp : ∀ b ∈ D.boxes, Apart (D.points b) (newPoints D M (keep box) (BoxSig.cod box).length x) ∨ y + 1 ≤ b.y) :
    Free (addBox D (L ++ M ++ R) keep box L.length x y).1 (addBox D (L ++ M ++ R) keep box L.length x y).2 := by
  have S := I.split
  have wire_cases : ∀ w ∈ M.zip (List.range' D.ends.length M.length), ∃ k, ∃ h : k < M.length, w = (M[k], D.ends.length + k) := by
    intro w hw
    obtain ⟨k, hk, rfl⟩ := List.getElem_of_mem hw
    simp only [List.length_zip, List.length_range', Nat.min_self] at hk
    exact ⟨k, hk, by simp⟩
  have mlt : ∀ k (h : k < M.length), M[k] < D.ends.length := fun k h => I.scan_lt _ (by simp)
  rw [scan_new hm]
  refine ⟨?_, ?_, ?_⟩
  · rw [boxes_new hm, List.pairwise_append]
    refine ⟨?_, by simp, ?_⟩
    · refine List.Pairwise.imp_of_mem ?_ C.sep
      intro b c hb hc h
      rwa [points_old I hb, points_old I hc]
    · intro b hb c hc
      rw [List.mem_singleton.1 hc, points_old I hb, points_new hm]
      exact hp b hb
  · intro w hw b hb
    rw [boxes_new hm] at hb
    rw [wires_new hm] at hw
    rcases List.mem_append.1 hw with hw | hw
    · rw [xAt_old (I.wire_lt w hw).1, yAt_old (I.wire_lt w hw).1, yAt_old (I.wire_lt w hw).2]
      rcases List.mem_append.1 hb with hb | hb
      · rw [points_old I hb]; exact C.clear w hw b hb
      · rw [List.mem_singleton.1 hb, points_new hm]
        obtain ⟨c, hc, h⟩ := I.tgt w hw
        have hpt : D.xAt w.2 ∈ D.points c := by
          unfold Drawable.points
          rw [if_neg (by intro h'; simp at h'; rw [h'.2] at h; simp at h)]
          exact List.mem_map_of_mem (by simp [h])
        rw [I.vert w hw]
        rcases hp c hc with (ha | ha) | ha
        · left; intro q hq; have := ha _ hpt q hq; linarith
        · right; left; intro q hq; have := ha _ hpt q hq; linarith
        · right; right; right
          rw [(I.boxY c hc).1 _ h]
          show y + 1 / 4 ≤ _
          linarith
    · obtain ⟨k, hk, rfl⟩ := wire_cases w hw
      simp only
      rw [xAt_old (mlt k hk), yAt_old (mlt k hk), ys_dom hm _ (List.mem_range'.2 ⟨k, hk, by simp⟩)]
      rcases List.mem_append.1 hb with hb | hb
      · rw [points_old I hb]
        rcases C.opened M[k] (by simp) b hb with h | h | h <;> tauto
      · rw [List.mem_singleton.1 hb]
        right; right; right; exact le_refl _
  · intro i hi b hb
    rw [boxes_new hm] at hb
    simp only [List.mem_append] at hi
    have side : i ∈ L ∨ i ∈ R → LeftOf (D.xAt i) ((addBox D (L ++ M ++ R) keep box L.length x y).1.points b) ∨ RightOf (D.xAt i) ((addBox D (L ++ M ++ R) keep box L.length x y).1.points b) ∨ D.yAt i ≤ b.y - 1 / 4 := by
      intro hi
      rcases List.mem_append.1 hb with hb | hb
      · rw [points_old I hb]; exact C.opened i (by simp only [List.mem_append]; tauto) b hb
      · rw [List.mem_singleton.1 hb, points_new hm]
        rcases hi with hi | hi
        · left; intro q hq; have := newPoints_left S F _ i hi q hq; linarith
        · right; left; intro q hq; have := newPoints_right S F _ i hi q hq; linarith
    rcases hi with (hi | hi) | hi
    · rw [xAt_old (I.scan_lt i (by simp [hi])), yAt_old (I.scan_lt i (by simp [hi]))]; exact side (.inl hi)
    · rw [ys_cod hm i hi]
      rcases List.mem_append.1 hb with hb | hb
      · rw [points_old I hb]
        have hpt : (addBox D (L ++ M ++ R) keep box L.length x y).1.xAt i ∈ newPoints D M (keep box) (BoxSig.cod box).length x :=
          codPoints_sub _ (by rw [← xs_cod (L := L) (R := R) (y := y) hm]; exact List.mem_map_of_mem hi)
        rcases hp b hb with (ha | ha) | ha
        · right; left; intro q hq; have := ha q hq _ hpt; linarith
        · left; intro q hq; have := ha q hq _ hpt; linarith
        · right; right; linarith
      · rw [List.mem_singleton.1 hb]
        right; right; exact le_refl _
    · rw [xAt_old (I.scan_lt i (by simp [hi])), yAt_old (I.scan_lt i (by simp [hi]))]; exact side (.inr hi)

end AddBox

end Draw
end Lambeq
