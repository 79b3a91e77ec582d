import Verif.Ansatz.Split

/-!
# Splitting boxes

C54: `MPSAnsatz` and `SpiderAnsatz`.
-/

namespace Lambeq
open Diagram
open GDiagram
open DRewrite (tensorN_cons tensorN_nil mkCup_mat)
set_option linter.unusedSectionVars false
set_option linter.unusedSimpArgs false
namespace Split

/-! ## Specification -/

def bondR : Ob := ⟨"B", 1⟩

section
variable {R : Type} [CommSemiring R] (I : Interp Ob Box R)

/-- Spiders with three legs are copies. -/
def CopyLaw : Prop := ∀ t, ∀ i < I.dim t, ∀ j < I.dim t, ∀ k < I.dim t, I.ten (.spider t 2 1) [i, j] [k] = if i = j ∧ j = k then 1 else 0

/-- The value of a matrix product state: a list of boxes, each with the number of its open wires, that share a bond with their neighbours. `l` is the value
of the bond on the left of the first box, if any. -/
def mpsVal : List (Box × Nat) → List Nat → List Nat → R
  | [], _, _ => 1
  | [(b, _)], l, y => I.ten b [] (l ++ y)
  | (b, k) :: rest, l, y => ∑ j ∈ Finset.range (I.dim bond), I.ten b [] (l ++ (y.take k ++ [j])) * mpsVal rest [j] (y.drop k)

/-- The value of a chain of boxes in which neighbours share one wire: the product of their entries, where each box takes the indices of its wires and the next
one starts at the last of these. -/
def overlapVal : List (Box × Nat) → List Nat → R
  | [], _ => 1
  | (b, k) :: rest, y => I.ten b [] (y.take k) * overlapVal rest (y.drop (k - 1))
end

/-- The boxes of a matrix product state for the given windows; `l` is the bond on the left of the first box. -/
def mpsBoxes : Ty → List (String × Ty) → List (String × Ty)
  | _, [] => []
  | l, [(n, c)] => [(n, l ++ c)]
  | l, (n, c) :: w :: ws => (n, l ++ (c ++ [bond])) :: mpsBoxes [bondR] (w :: ws)

/-- The windows of `MPSAnsatz`. -/
def mpsWindows (m : Nat) (name : String) (cod : Ty) : List (String × Ty) :=
  (List.range ((cod.length + (m - 2) - 1) / (m - 2))).map (fun i => (pieceName name i, (cod.drop (i * (m - 2))).take (m - 2)))

/-- The windows of `SpiderAnsatz`; neighbours share one wire. -/
def spiderWindows (m : Nat) (name : String) (cod : Ty) : List (String × Ty) :=
  (List.range ((cod.length - 1 + (m - 1) - 1) / (m - 1))).map (fun i => (pieceName name i, (cod.drop (i * (m - 1))).take m))

/-! ## Lists -/

theorem slice_mid {α : Type} (a b : α) (m : List α) : pySlice (a :: (m ++ [b])) (some 1) (some (-1)) = m := by
  have : pySlice (a :: (m ++ [b])) (some 1) (some (-1)) = ((a :: (m ++ [b])).drop 1).take (m.length + 1 - 1) := by
    simp only [pySlice, clampIdx]
    have h1 : ¬ ((1 : Int) < 0) := by omega
    have h2 : ((-1 : Int) < 0) := by omega
    rw [if_neg h1, if_pos h2]
    congr 1
    · have : (((a :: (m ++ [b])).length : Int) + -1).toNat = m.length + 1 := by simp
      rw [this]; simp
  rw [this]; simp

theorem slice_tail {α : Type} (a : α) (m : List α) : pySlice (a :: m) (some 1) none = m := by
  have := pySlice_nat_from (a :: m) 1
  simpa using this

theorem slice_init {α : Type} (m : List α) (b : α) : pySlice (m ++ [b]) none (some (-1)) = m := by
  have := pySlice_none_neg (m ++ [b]) 1 (by omega)
  simp at this
  simpa using this

theorem slice_last {α : Type} (m : List α) (b : α) : pySlice (m ++ [b]) (some (-1)) none = [b] := by
  have := pySlice_neg_none (m ++ [b]) 1 (by omega)
  simp at this
  simpa using this

theorem zipIdx_range_map {α : Type} (K s : Nat) (f : Nat × Nat → α) :
    (((List.range K).map (· * s)).zipIdx).map f = (List.range K).map (fun i => f (i * s, i)) := by
  apply List.ext_getElem
  · simp
  · intro i h1 h2; simp

theorem dropLast_flatMap_pair {α β : Type} (l : List α) (w : α) (f : α → β) (x : β) :
    ((l ++ [w]).flatMap (fun p => [f p, x])).dropLast = l.flatMap (fun p => [f p, x]) ++ [f w] := by
  rw [List.flatMap_append]
  simp only [List.flatMap_cons, List.flatMap_nil, List.append_nil]
  rw [show ([f w, x] : List β) = [f w] ++ [x] from rfl, ← List.append_assoc, List.dropLast_concat]

/-! ## Matrix product states -/

def cupBox : Box := .cup bond bondR false

theorem mkCup_bond : GDiagram.mkCup [bond] (Ty.r [bond]) false = .ok (ofBox cupBox) := by rfl

/-- The second half of the circuit. -/
def cupRow : List (String × Ty) → GDiagram
  | [] => Diagram.id []
  | [(_, c)] => Diagram.id c
  | (_, c) :: w :: ws => tensor (Diagram.id c) (tensor (ofBox cupBox) (cupRow (w :: ws)))

def boxRow (l : List (String × Ty)) : GDiagram := tensorN (l.map (fun p => ofBox (.word p.1 p.2 0)))

theorem wordRow_eq (l : List (String × Ty)) : wordRow l = boxRow l := by
  rw [wordRow, boxRow, tensorN_cons, tensor_id_nil_left]

theorem boxRow_cons (p : String × Ty) (l : List (String × Ty)) : boxRow (p :: l) = tensor (ofBox (.word p.1 p.2 0)) (boxRow l) := by
  rw [boxRow, List.map_cons, tensorN_cons]; rfl

theorem boxRow_wf (l : List (String × Ty)) : WF (boxRow l) ∧ (boxRow l).dom = [] ∧ (boxRow l).cod = (l.map Prod.snd).flatten := by
  induction l with
  | nil => rw [boxRow, List.map_nil, tensorN_nil]; exact ⟨wf_id _, rfl, rfl⟩
  | cons p l ih =>
    rw [boxRow_cons]
    refine ⟨wf_tensor (wf_ofBox trivial) ih.1, ?_, ?_⟩
    · rw [tensor_dom, ih.2.1]; rfl
    · rw [tensor_cod, ih.2.2]; rfl

theorem boxRow_boxes (l : List (String × Ty)) : (boxRow l).boxes = l.map (fun p => Box.word p.1 p.2 0) := by
  induction l with
  | nil => rw [boxRow, List.map_nil, tensorN_nil]; rfl
  | cons p l ih =>
    rw [boxRow_cons, List.map_cons, ← ih]
    simp [boxes, tensor_layers, ofBox, Layer.extend, Function.comp_def]

theorem cupRow_spec (ws : List (String × Ty)) (h : ws ≠ []) : WF (cupRow ws) ∧ (cupRow ws).cod = (ws.map Prod.snd).flatten ∧
    (∀ b ∈ (cupRow ws).boxes, b = cupBox) ∧ ∀ l, ((mpsBoxes l ws).map Prod.snd).flatten = l ++ (cupRow ws).dom := by
  induction ws with
  | nil => exact absurd rfl h
  | cons w ws ih =>
    obtain ⟨n, c⟩ := w
    cases ws with
    | nil => exact ⟨wf_id _, by simp [cupRow, Diagram.id], by simp [cupRow, Diagram.id, boxes], fun l => by simp [mpsBoxes, cupRow, Diagram.id]⟩
    | cons w ws =>
      obtain ⟨i1, i2, i3, i4⟩ := ih (by simp)
      refine ⟨wf_tensor (wf_id _) (wf_tensor (wf_ofBox (by decide)) i1), ?_, ?_, fun l => ?_⟩
      · rw [cupRow, tensor_cod, tensor_cod, i2]; rfl
      · intro b hb
        simp only [cupRow, boxes, tensor_layers, Diagram.id, ofBox, List.map_append, List.map_map, List.map_nil, List.nil_append, List.mem_append, List.map_cons,
          List.mem_cons, List.not_mem_nil, or_false, List.mem_map, Function.comp_apply] at hb
        rcases hb with hb | ⟨l, hl, rfl⟩
        · exact hb
        · exact i3 _ (List.mem_map.2 ⟨l, hl, rfl⟩)
      · rw [mpsBoxes, List.map_cons, List.flatten_cons, i4, cupRow, tensor_dom, tensor_dom]
        simp [Diagram.id, ofBox, cupBox, BoxSig.dom, Box.dom]

theorem trimLast_cons (a b : String × Ty) (l : List (String × Ty)) : trimLast (a :: b :: l) = a :: trimLast (b :: l) := by
  simp only [trimLast, List.getLast?_cons_cons, List.dropLast]
  cases hb : (b :: l).getLast? with
  | none => simp at hb
  | some p => rfl

/-- The boxes with a bond on both sides, without the last bond. -/
theorem trimLast_eq (ws : List (String × Ty)) (h : ws ≠ []) :
    trimLast (ws.map (fun p => (p.1, [bondR] ++ p.2 ++ [bond]))) = mpsBoxes [bondR] ws := by
  induction ws with
  | nil => exact absurd rfl h
  | cons w ws ih =>
    obtain ⟨n, c⟩ := w
    cases ws with
    | nil =>
      simp only [trimLast, List.map_cons, List.map_nil, List.getLast?_singleton, List.dropLast_singleton, List.nil_append, mpsBoxes]
      rw [slice_init]
    | cons w ws =>
      have := ih (by simp)
      rw [mpsBoxes, ← this]
      simp only [List.map_cons, List.nil_append, List.cons_append]
      exact trimLast_cons _ _ _

theorem trim_boxes (ws : List (String × Ty)) (h : ws ≠ []) :
    trimLast (trimHead (ws.map (fun p => (p.1, [bondR] ++ p.2 ++ [bond])))) = mpsBoxes [] ws := by
  cases ws with
  | nil => exact absurd rfl h
  | cons w ws =>
    obtain ⟨n, c⟩ := w
    simp only [List.map_cons, trimHead, List.cons_append, List.nil_append]
    rw [slice_tail]
    cases ws with
    | nil =>
      simp only [trimLast, List.map_nil, List.getLast?_singleton, List.dropLast_singleton, List.nil_append, mpsBoxes]
      rw [slice_init]
    | cons w ws =>
      have := trimLast_eq (w :: ws) (by simp)
      rw [mpsBoxes, ← this]
      simp only [List.map_cons, List.nil_append, List.cons_append]
      exact trimLast_cons _ _ _

theorem cups_eq (ws : List (String × Ty)) (h : ws ≠ []) :
    (tensorN ((ws.flatMap (fun p => [Diagram.id p.2, ofBox cupBox])).dropLast) : GDiagram) = cupRow ws := by
  induction ws with
  | nil => exact absurd rfl h
  | cons w ws ih =>
    obtain ⟨n, c⟩ := w
    cases ws with
    | nil => simp [cupRow, tensorN_cons, tensorN_nil, tensor_id_nil_right]
    | cons w ws =>
      have := ih (by simp)
      rw [cupRow, ← this, ← tensorN_cons, ← tensorN_cons]
      simp [List.dropLast]

section
variable {R : Type} [CommSemiring R] {I : Interp Ob Box R}

theorem mat_boxRow (l : List (String × Ty)) (p : String × Ty) {u z : List Nat} (hu : u ∈ I.idx p.2) (hz : z ∈ I.idx (boxRow l).cod) :
    I.mat (boxRow (p :: l)) [] (u ++ z) = I.ten (.word p.1 p.2 0) [] u * I.mat (boxRow l) [] z := by
  have h0 : ([] : List Nat) ∈ I.idx ([] : Ty) := by simp [Interp.idx]
  rw [boxRow_cons]
  have := I.mat_tensor (f := ofBox (.word p.1 p.2 0)) (g := boxRow l) (wf_ofBox (b := .word p.1 p.2 0) trivial).1 (boxRow_wf l).1.1 (x1 := []) (x2 := []) (y1 := u) (y2 := z)
    h0 (by rw [(boxRow_wf l).2.1]; exact h0) hu hz
  rw [List.append_nil] at this
  rw [this, I.mat_ofBox _ h0 hu]

theorem mps_value (hI : Compact I) (ws : List (String × Ty)) (h : ws ≠ []) (l : Ty) {lv y : List Nat} (hl : lv ∈ I.idx l)
    (hy : y ∈ I.idx (ws.map Prod.snd).flatten) :
    ∑ z ∈ I.idx (cupRow ws).dom, I.mat (boxRow (mpsBoxes l ws)) [] (lv ++ z) * I.mat (cupRow ws) z y =
      mpsVal I ((mpsBoxes l ws).zipWith (fun p w => (Box.word p.1 p.2 0, w.2.length)) ws) lv y := by
  induction ws generalizing l lv y with
  | nil => exact absurd rfl h
  | cons w ws ih =>
    obtain ⟨n, c⟩ := w
    cases ws with
    | nil =>
      simp only [cupRow, mpsBoxes, List.zipWith_cons_cons, List.zipWith_nil_left, mpsVal]
      simp only [List.map_cons, List.map_nil, List.flatten_cons, List.flatten_nil, List.append_nil] at hy
      rw [Finset.sum_eq_single y]
      · rw [I.mat_id, if_pos rfl, mul_one]
        have := mat_boxRow (I := I) [] (n, l ++ c) (u := lv ++ y) (z := []) (I.append_mem hl hy) (by rw [(boxRow_wf []).2.2]; simp [Interp.idx])
        rw [List.append_nil] at this
        rw [this, boxRow, List.map_nil, tensorN_nil, I.mat_id]
        simp
      · intro z hz hne
        rw [I.mat_id, if_neg (fun e => hne e.symm), mul_zero]
      · intro hn; exact absurd hy hn
    | cons w ws =>
      obtain ⟨i1, i2, i3, i4⟩ := cupRow_spec (w :: ws) (by simp)
      rw [List.map_cons, List.flatten_cons] at hy
      obtain ⟨y1, y2, rfl, hy1, hy2⟩ := I.mem_append hy
      have hlen : y1.length = c.length := I.length_of_mem hy1
      have hcod : (boxRow (mpsBoxes [bondR] (w :: ws))).cod = bondR :: (cupRow (w :: ws)).dom := by rw [(boxRow_wf _).2.2, i4]; rfl
      have hdim : I.dim bondR = I.dim bond := hI.dim_rot 1 bond
      simp only [mpsBoxes, List.zipWith_cons_cons]
      rw [show ∀ (b : Box × Nat) (q : List (Box × Nat)), q ≠ [] → mpsVal I (b :: q) lv (y1 ++ y2) =
        ∑ j ∈ Finset.range (I.dim bond), I.ten b.1 [] (lv ++ ((y1 ++ y2).take b.2 ++ [j])) * mpsVal I q [j] ((y1 ++ y2).drop b.2) from
        fun b q hq => by cases q with
          | nil => exact absurd rfl hq
          | cons _ _ => rfl]
      rotate_left
      · cases ws <;> simp [mpsBoxes]
      simp only [List.take_left' hlen, List.drop_left' hlen]
      have hdom : (cupRow ((n, c) :: w :: ws)).dom = c ++ ([bond] ++ ([bondR] ++ (cupRow (w :: ws)).dom)) := by
        rw [cupRow, tensor_dom, tensor_dom]; rfl
      rw [hdom, I.sum_idx_append, Finset.sum_eq_single y1]
      rotate_left
      · intro u hu hne
        refine Finset.sum_eq_zero (fun z hz => ?_)
        rw [cupRow, I.mat_tensor (wf_id c).1 (wf_tensor (wf_ofBox (b := cupBox) (by decide)) i1).1 (x1 := u) (x2 := z) (y1 := y1) (y2 := y2) hu
          (by rw [tensor_dom]; exact hz) hy1 (by rw [tensor_cod, i2]; exact hy2), I.mat_id, if_neg (fun e => hne e.symm)]
        ring
      · intro hn; exact absurd hy1 hn
      have hs : ∀ f : List Nat → R, ∑ z ∈ I.idx ([bond] ++ ([bondR] ++ (cupRow (w :: ws)).dom)), f z =
          ∑ j ∈ Finset.range (I.dim bond), ∑ j' ∈ Finset.range (I.dim bond), ∑ z ∈ I.idx (cupRow (w :: ws)).dom, f (j :: j' :: z) := by
        intro f
        rw [List.singleton_append, List.singleton_append, I.sum_idx_cons]
        refine Finset.sum_congr rfl (fun j _ => ?_)
        rw [I.sum_idx_cons, hdim]
      rw [hs]
      refine Finset.sum_congr rfl (fun j hj => ?_)
      rw [Finset.mem_range] at hj
      rw [Finset.sum_eq_single j]
      · rw [← ih (by simp) [bondR] (lv := [j]) (y := y2) ((I.mem_idx _ _).2 (.cons (hdim ▸ hj) .nil)) hy2, Finset.mul_sum]
        refine Finset.sum_congr rfl (fun z hz => ?_)
        have hjz : j :: z ∈ I.idx (bondR :: (cupRow (w :: ws)).dom) := (I.mem_idx _ _).2 (.cons (hdim ▸ hj) ((I.mem_idx _ _).1 hz))
        have e1 := mat_boxRow (I := I) (mpsBoxes [bondR] (w :: ws)) (n, l ++ (c ++ [bond])) (u := lv ++ (y1 ++ [j])) (z := j :: z)
          (I.append_mem hl (I.append_mem hy1 ((I.mem_idx _ _).2 (.cons hj .nil)))) (by rw [hcod]; exact hjz)
        have ec : lv ++ (y1 ++ j :: j :: z) = (lv ++ (y1 ++ [j])) ++ (j :: z) := by simp
        rw [ec, e1, cupRow]
        have hcupd : [j, j] ∈ I.idx (ofBox cupBox : GDiagram).dom := (I.mem_idx _ _).2 (.cons hj (.cons (hdim ▸ hj) .nil))
        have h0 : ([] : List Nat) ∈ I.idx (ofBox cupBox : GDiagram).cod := by simp [ofBox, cupBox, BoxSig.cod, Box.cod, Interp.idx]
        have e2 := I.mat_tensor (f := ofBox cupBox) (g := cupRow (w :: ws)) (wf_ofBox (b := cupBox) (by decide)).1 i1.1 (x1 := [j, j]) (x2 := z) (y1 := []) (y2 := y2)
          hcupd hz h0 (by rw [i2]; exact hy2)
        rw [I.mat_tensor (wf_id c).1 (wf_tensor (wf_ofBox (b := cupBox) (by decide)) i1).1 (x1 := y1) (x2 := j :: j :: z) (y1 := y1) (y2 := y2) hy1
          (by rw [tensor_dom]; exact I.append_mem hcupd hz) hy1 (by rw [tensor_cod, i2]; exact hy2), I.mat_id, if_pos rfl, one_mul]
        simp only [List.cons_append, List.nil_append] at e2 ⊢
        rw [e2, I.mat_ofBox _ hcupd h0, cupBox, hI.cup bond bondR false (by decide) j hj j (hdim ▸ hj), if_pos rfl, one_mul, mul_assoc]
      · intro j' hj' hne
        rw [Finset.mem_range] at hj'
        refine Finset.sum_eq_zero (fun z hz => ?_)
        have hcupd : [j, j'] ∈ I.idx (ofBox cupBox : GDiagram).dom := (I.mem_idx _ _).2 (.cons hj (.cons (hdim ▸ hj') .nil))
        have h0 : ([] : List Nat) ∈ I.idx (ofBox cupBox : GDiagram).cod := by simp [ofBox, cupBox, BoxSig.cod, Box.cod, Interp.idx]
        have e2 := I.mat_tensor (f := ofBox cupBox) (g := cupRow (w :: ws)) (wf_ofBox (b := cupBox) (by decide)).1 i1.1 (x1 := [j, j']) (x2 := z) (y1 := []) (y2 := y2)
          hcupd hz h0 (by rw [i2]; exact hy2)
        rw [cupRow, I.mat_tensor (wf_id c).1 (wf_tensor (wf_ofBox (b := cupBox) (by decide)) i1).1 (x1 := y1) (x2 := j :: j' :: z) (y1 := y1) (y2 := y2) hy1
          (by rw [tensor_dom]; exact I.append_mem hcupd hz) hy1 (by rw [tensor_cod, i2]; exact hy2)]
        simp only [List.cons_append, List.nil_append] at e2
        rw [e2, I.mat_ofBox _ hcupd h0, cupBox, hI.cup bond bondR false (by decide) j hj j' (hdim ▸ hj'), if_neg (fun e => hne e.symm)]
        ring
      · intro hn; exact absurd (Finset.mem_range.2 hj) hn
/-! ## Spiders -/

theorem mkSpider_atom (b : Ob) : GDiagram.mkSpider [b] 2 1 = .ok (ofBox (.spider b 2 1)) := by rfl

end

/-- The boxes for windows given by their middle and last wires; `a` is the first wire of the first window. -/
def spBoxes : Ob → List (String × Ty × Ob) → List (String × Ty)
  | _, [] => []
  | a, (n, m, b) :: ps => (n, a :: (m ++ [b])) :: spBoxes b ps

/-- The second half of the circuit, without the first wire. -/
def spRow : List (String × Ty × Ob) → GDiagram
  | [] => Diagram.id []
  | [(_, m, b)] => tensor (Diagram.id m) (Diagram.id [b])
  | (_, m, b) :: p :: ps => tensor (Diagram.id m) (tensor (ofBox (.spider b 2 1)) (spRow (p :: ps)))

def spWires (ps : List (String × Ty × Ob)) : Ty := ps.flatMap (fun p => p.2.1 ++ [p.2.2])

theorem spRow_spec (ps : List (String × Ty × Ob)) (h : ps ≠ []) : WF (spRow ps) ∧ (spRow ps).cod = spWires ps ∧
    (∀ b ∈ (spRow ps).boxes, ∃ t, b = .spider t 2 1) ∧ ∀ a, ((spBoxes a ps).map Prod.snd).flatten = a :: (spRow ps).dom := by
  induction ps with
  | nil => exact absurd rfl h
  | cons p ps ih =>
    obtain ⟨n, m, b⟩ := p
    cases ps with
    | nil =>
      refine ⟨wf_tensor (wf_id _) (wf_id _), ?_, ?_, fun a => ?_⟩
      · rw [spRow, tensor_cod]; simp [spWires, Diagram.id]
      · intro x hx; simp [spRow, boxes, tensor_layers, Diagram.id] at hx
      · rw [spRow, tensor_dom]; simp [spBoxes, Diagram.id]
    | cons p ps =>
      obtain ⟨i1, i2, i3, i4⟩ := ih (by simp)
      refine ⟨wf_tensor (wf_id _) (wf_tensor (wf_ofBox (b := .spider b 2 1) trivial) i1), ?_, ?_, fun a => ?_⟩
      · rw [spRow, tensor_cod, tensor_cod, i2]; simp [spWires, Diagram.id, ofBox, BoxSig.cod, Box.cod]
      · intro x hx
        simp only [spRow, boxes, tensor_layers, Diagram.id, ofBox, List.map_append, List.map_map, List.map_nil, List.nil_append, List.mem_append, List.map_cons,
          List.mem_cons, List.not_mem_nil, or_false, List.mem_map, Function.comp_apply] at hx
        rcases hx with hx | ⟨l, hl, rfl⟩
        · exact ⟨b, hx⟩
        · exact i3 _ (List.mem_map.2 ⟨l, hl, rfl⟩)
      · rw [spBoxes, List.map_cons, List.flatten_cons, i4, spRow, tensor_dom, tensor_dom]
        simp [Diagram.id, ofBox, BoxSig.dom, Box.dom, List.replicate]

section
variable {R : Type} [CommSemiring R] {I : Interp Ob Box R}

theorem spider_value (hS : CopyLaw I) (ps : List (String × Ty × Ob)) (h : ps ≠ []) (a : Ob) {i : Nat} {y : List Nat} (hi : i < I.dim a)
    (hy : y ∈ I.idx (spWires ps)) :
    ∑ z ∈ I.idx (spRow ps).dom, I.mat (boxRow (spBoxes a ps)) [] (i :: z) * I.mat (spRow ps) z y =
      overlapVal I ((spBoxes a ps).map (fun p => (Box.word p.1 p.2 0, p.2.length))) (i :: y) := by
  induction ps generalizing a i y with
  | nil => exact absurd rfl h
  | cons p ps ih =>
    obtain ⟨n, m, b⟩ := p
    have hy' : y ∈ I.idx (m ++ ([b] ++ spWires ps)) := by simpa [spWires] using hy
    obtain ⟨y1, y2, rfl, hy1, hy2⟩ := I.mem_append hy'
    obtain ⟨ky, y3, rfl, hk, hy3⟩ := I.mem_append hy2
    obtain ⟨k, rfl, hkb⟩ : ∃ k, ky = [k] ∧ k < I.dim b := by
      rw [I.mem_idx] at hk
      cases hk with | cons h1 h2 => cases h2; exact ⟨_, rfl, h1⟩
    have hlen : y1.length = m.length := I.length_of_mem hy1
    have hw : i :: (y1 ++ [k]) ∈ I.idx (a :: (m ++ [b])) := (I.mem_idx _ _).2 (.cons hi ((I.mem_idx _ _).1 (I.append_mem hy1 hk)))
    have htake : (i :: (y1 ++ ([k] ++ y3))).take (a :: (m ++ [b])).length = i :: (y1 ++ [k]) := by
      rw [show i :: (y1 ++ ([k] ++ y3)) = (i :: (y1 ++ [k])) ++ y3 by simp]
      exact List.take_left' (by simp [hlen])
    have hdrop : (i :: (y1 ++ ([k] ++ y3))).drop ((a :: (m ++ [b])).length - 1) = k :: y3 := by
      rw [show i :: (y1 ++ ([k] ++ y3)) = (i :: y1) ++ (k :: y3) by simp]
      exact List.drop_left' (by simp [hlen])
    simp only [spBoxes, List.map_cons, overlapVal, htake, hdrop]
    cases ps with
    | nil =>
      obtain rfl : y3 = [] := by simpa [spWires, Interp.idx] using hy3
      have hd : (spRow [(n, m, b)]).dom = m ++ [b] := by rw [spRow, tensor_dom]; rfl
      have hid : spRow [(n, m, b)] = Diagram.id (m ++ [b]) := by rw [spRow]; simp [tensor_eq, Diagram.id]
      rw [hid, show (Diagram.id (m ++ [b]) : GDiagram).dom = m ++ [b] from rfl, Finset.sum_eq_single (y1 ++ [k])]
      · rw [I.mat_id]
        have := mat_boxRow (I := I) [] (n, a :: (m ++ [b])) (u := i :: (y1 ++ [k])) (z := []) hw (by rw [(boxRow_wf []).2.2]; simp [Interp.idx])
        rw [List.append_nil] at this
        rw [spBoxes, this, boxRow, List.map_nil, tensorN_nil, I.mat_id]
        simp [overlapVal]
      · intro z hz hne
        rw [I.mat_id, if_neg, mul_zero]
        simpa using fun e => hne e.symm
      · intro hn; exact absurd (I.append_mem hy1 hk) hn
    | cons p ps =>
      obtain ⟨i1, i2, i3, i4⟩ := spRow_spec (p :: ps) (by simp)
      have hcod : (boxRow (spBoxes b (p :: ps))).cod = b :: (spRow (p :: ps)).dom := by rw [(boxRow_wf _).2.2, i4]
      have hdom : (spRow ((n, m, b) :: p :: ps)).dom = m ++ ([b] ++ ([b] ++ (spRow (p :: ps)).dom)) := by
        rw [spRow, tensor_dom, tensor_dom]; rfl
      have wS := (wf_ofBox (b := .spider b 2 1) trivial).1
      have wT := (wf_tensor (wf_ofBox (b := .spider b 2 1) trivial) i1).1
      have hk1 : [k] ∈ I.idx (ofBox (.spider b 2 1) : GDiagram).cod := hk
      have key : ∀ u ∈ I.idx m, ∀ j < I.dim b, ∀ j' < I.dim b, ∀ z ∈ I.idx (spRow (p :: ps)).dom,
          I.mat (spRow ((n, m, b) :: p :: ps)) (u ++ j :: j' :: z) (y1 ++ ([k] ++ y3)) =
            (if y1 = u then 1 else 0) * ((if j = j' ∧ j' = k then 1 else 0) * I.mat (spRow (p :: ps)) z y3) := by
        intro u hu j hj j' hj' z hz
        have hd2 : [j, j'] ∈ I.idx (ofBox (.spider b 2 1) : GDiagram).dom := (I.mem_idx _ _).2 (.cons hj (.cons hj' .nil))
        have e2 := I.mat_tensor (f := ofBox (.spider b 2 1)) (g := spRow (p :: ps)) wS i1.1 (x1 := [j, j']) (x2 := z) (y1 := [k]) (y2 := y3)
          hd2 hz hk1 (by rw [i2]; exact hy3)
        rw [spRow, I.mat_tensor (wf_id m).1 wT (x1 := u) (x2 := j :: j' :: z) (y1 := y1) (y2 := [k] ++ y3) hu
          (by rw [tensor_dom]; exact I.append_mem hd2 hz) hy1 (by rw [tensor_cod, i2]; exact hy2), I.mat_id]
        simp only [List.cons_append, List.nil_append] at e2 ⊢
        rw [e2, I.mat_ofBox _ hd2 hk1, hS b j hj j' hj' k hkb]
      rw [hdom, I.sum_idx_append, Finset.sum_eq_single y1]
      rotate_left
      · intro u hu hne
        refine Finset.sum_eq_zero (fun z hz => ?_)
        obtain ⟨z1, z2, rfl, hz1, hz2⟩ := I.mem_append hz
        obtain ⟨z3, z4, rfl, hz3, hz4⟩ := I.mem_append hz2
        rw [I.mem_idx] at hz1 hz3
        cases hz1 with | cons h1 h2 => cases h2; cases hz3 with | cons h3 h4 => cases h4; exact (by
          simp only [List.cons_append, List.nil_append]
          have := key u hu _ h1 _ h3 z4 hz4
          simp only [List.cons_append, List.nil_append] at this
          rw [this, if_neg (fun e => hne e.symm)]; ring)
      · intro hn; exact absurd hy1 hn
      rw [List.singleton_append, List.singleton_append, I.sum_idx_cons, Finset.sum_eq_single k]
      rotate_left
      · intro j hj hne
        rw [Finset.mem_range] at hj
        rw [I.sum_idx_cons]
        refine Finset.sum_eq_zero (fun j' hj' => Finset.sum_eq_zero (fun z hz => ?_))
        rw [Finset.mem_range] at hj'
        rw [key y1 hy1 j hj j' hj' z hz, if_pos rfl, if_neg (by rintro ⟨rfl, rfl⟩; exact hne rfl)]; ring
      · intro hn; exact absurd (Finset.mem_range.2 hkb) hn
      rw [I.sum_idx_cons, Finset.sum_eq_single k]
      rotate_left
      · intro j' hj' hne
        rw [Finset.mem_range] at hj'
        refine Finset.sum_eq_zero (fun z hz => ?_)
        rw [key y1 hy1 k hkb j' hj' z hz, if_pos rfl, if_neg (by rintro ⟨rfl, _⟩; exact hne rfl)]; ring
      · intro hn; exact absurd (Finset.mem_range.2 hkb) hn
      rw [← ih (by simp) b hkb hy3, Finset.mul_sum]
      refine Finset.sum_congr rfl (fun z hz => ?_)
      have hkz : k :: z ∈ I.idx (b :: (spRow (p :: ps)).dom) := (I.mem_idx _ _).2 (.cons hkb ((I.mem_idx _ _).1 hz))
      have e1 := mat_boxRow (I := I) (spBoxes b (p :: ps)) (n, a :: (m ++ [b])) (u := i :: (y1 ++ [k])) (z := k :: z) hw (by rw [hcod]; exact hkz)
      rw [key y1 hy1 k hkb k hkb z hz, if_pos rfl, if_pos ⟨rfl, rfl⟩, one_mul, one_mul,
        show i :: (y1 ++ k :: k :: z) = (i :: (y1 ++ [k])) ++ (k :: z) by simp, e1, mul_assoc]

end

end Split
end Lambeq
