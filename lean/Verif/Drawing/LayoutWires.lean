import Verif.Drawing.LayoutFinal

namespace Lambeq
namespace Draw
variable {O B : Type} [BoxSig B O]
set_option linter.unusedSectionVars false
set_option linter.unusedSimpArgs false

/-! ## Specification -/

/-- Where a wire comes from: an input of the diagram, or an output of a box. -/
inductive Port
  | input (i : Nat)
  | out (k i : Nat)
  deriving DecidableEq

/-- Follow the wire at position `p` upwards, from above layer `k`. -/
def origin (ls : List (Layer O B)) : Nat → Nat → Port
  | 0, p => .input p
  | k + 1, p => match ls[k]? with
    | none => .input p
    | some l =>
      if p < l.left.length then origin ls k p
      else if p < l.left.length + (BoxSig.cod l.box).length then .out k (p - l.left.length)
      else origin ls k (p - (BoxSig.cod l.box).length + (BoxSig.dom l.box).length)

/-- The number of ends before those of box `k`: inputs come first, then the ends of the boxes in order. -/
def base (n0 : Nat) (ls : List (Layer O B)) (k : Nat) : Nat :=
  n0 + ((ls.take k).map (fun l => (BoxSig.dom l.box).length + (BoxSig.cod l.box).length)).sum

/-- The end that belongs to a port. -/
def endOf (n0 : Nat) (ls : List (Layer O B)) : Port → Nat
  | .input i => i
  | .out k i => base n0 ls k + (match ls[k]? with
    | none => 0
    | some l => (BoxSig.dom l.box).length) + i

/-- The boxes with the numbers of their ends. -/
def boxList (n0 : Nat) (ls : List (Layer O B)) (k : Nat) : List (B × List Nat × List Nat) :=
  (ls.take k).zipIdx.map (fun p => (p.1.box, List.range' (base n0 ls p.2) (BoxSig.dom p.1.box).length,
    List.range' (base n0 ls p.2 + (BoxSig.dom p.1.box).length) (BoxSig.cod p.1.box).length))

/-- Kinds and types of the ends. -/
def endList (ty : List O) (ls : List (Layer O B)) (k : Nat) : List (EndKind × O) :=
  ty.map (fun o => (.input, o)) ++ (ls.take k).flatMap (fun l => (BoxSig.dom l.box).map (fun o => (.dom, o)) ++ (BoxSig.cod l.box).map (fun o => (.cod, o)))

/-- The wires into the boxes. -/
def wireList (n0 : Nat) (ls : List (Layer O B)) (k : Nat) : List (Nat × Nat) :=
  (ls.take k).zipIdx.flatMap (fun p => (List.range (BoxSig.dom p.1.box).length).map (fun i => (endOf n0 ls (origin ls p.2 (p.1.left.length + i)), base n0 ls p.2 + i)))

/-! ## Proof -/

/-- What does not depend on the places. -/
structure Skel (ty : List O) (ls : List (Layer O B)) (k : Nat) (D : Drawable O B) (scan : List Nat) : Prop where
  boxes : D.boxes.map (fun b => (b.obj, b.dom, b.cod)) = boxList ty.length ls k
  ends : D.ends.map (fun e => (e.kind, e.obj)) = endList ty ls k
  wires : D.wires = wireList ty.length ls k
  scan : scan = (List.range scan.length).map (fun p => endOf ty.length ls (origin ls k p))

theorem take_succ' {ls : List (Layer O B)} {k : Nat} {l : Layer O B} (h : ls[k]? = some l) : ls.take (k + 1) = ls.take k ++ [l] := by
  obtain ⟨hk, rfl⟩ := List.getElem?_eq_some_iff.1 h
  exact List.take_succ_eq_append_getElem hk

theorem take_len {ls : List (Layer O B)} {k : Nat} {l : Layer O B} (h : ls[k]? = some l) : (ls.take k).length = k := by
  obtain ⟨hk, rfl⟩ := List.getElem?_eq_some_iff.1 h
  simp; omega

theorem endList_length (ty : List O) (ls : List (Layer O B)) (k : Nat) : (endList ty ls k).length = base ty.length ls k := by
  simp [endList, base, List.length_flatMap]

theorem Skel.len {ty : List O} {ls : List (Layer O B)} {k : Nat} {D : Drawable O B} {scan : List Nat} (S : Skel ty ls k D scan) : D.ends.length = base ty.length ls k := by
  rw [← endList_length, ← S.ends, List.length_map]

theorem Skel.mapX {ty : List O} {ls : List (Layer O B)} {k : Nat} {D : Drawable O B} {scan : List Nat} (S : Skel ty ls k D scan) (φ : ℚ → ℚ) : Skel ty ls k (D.mapX φ) scan :=
  ⟨by rw [← S.boxes]; simp [Drawable.mapX, Function.comp_def], by rw [← S.ends]; simp [Drawable.mapX, Function.comp_def], S.wires, S.scan⟩

theorem domEnds_skel {D : Drawable O B} {L M R : List Nat} {ty : List O} {y : ℚ} (hm : ty.length = M.length) :
    (domEnds D (L ++ M ++ R) ty L.length y).map (fun e => (e.kind, e.obj)) = ty.map (fun o => (EndKind.dom, o)) := by
  rw [domEnds, drop_scan]
  apply List.ext_getElem
  · simp [hm]
  · intro i h1 h2
    simp

theorem codEnds_skel {D : Drawable O B} {scan : List Nat} {k : Bool} {m off : Nat} {ty : List O} {x y : ℚ} :
    (codEnds D scan k m ty off x y).map (fun e => (e.kind, e.obj)) = ty.map (fun o => (EndKind.cod, o)) := by
  apply List.ext_getElem
  · simp [codEnds]
  · intro i h1 h2
    simp [codEnds]

theorem addBox_skel {ty : List O} {ls : List (Layer O B)} {k : Nat} {l : Layer O B} (hl : ls[k]? = some l) {D : Drawable O B} {L M R : List Nat}
    (S : Skel ty ls k D (L ++ M ++ R)) (hL : L.length = l.left.length) (hm : (BoxSig.dom l.box).length = M.length) (keep : B → Bool) (x y : ℚ) :
    Skel ty ls (k + 1) (addBox D (L ++ M ++ R) keep l.box L.length x y).1 (addBox D (L ++ M ++ R) keep l.box L.length x y).2 := by
  have len := S.len
  have hsc := S.scan
  have get : ∀ p (h : p < (L ++ M ++ R).length), (L ++ M ++ R)[p] = endOf ty.length ls (origin ls k p) := by
    intro p h
    have := congrArg (fun z => z[p]?) hsc
    simp only [List.getElem?_eq_getElem h] at this
    rw [List.getElem?_eq_getElem (by simpa using h)] at this
    simpa using this
  refine ⟨?_, ?_, ?_, ?_⟩
  · rw [boxes_new hm, List.map_append, S.boxes, boxList, boxList, take_succ' hl, List.zipIdx_append, List.map_append, take_len hl]
    simp [newNode, hm, len]
  · rw [endList, take_succ' hl, List.flatMap_append, ← List.append_assoc, ← endList, ← S.ends]
    simp only [addBox, List.map_append, List.append_assoc]
    rw [← List.append_assoc L, domEnds_skel hm, codEnds_skel]
    simp
  · rw [wires_new hm, S.wires, wireList, wireList, take_succ' hl, List.zipIdx_append, List.flatMap_append, take_len hl]
    congr 1
    simp only [List.zipIdx_cons, List.zipIdx_nil, List.flatMap_cons, List.flatMap_nil, List.append_nil]
    apply List.ext_getElem
    · simp [hm]
    · intro i h1 h2
      simp only [List.length_map, List.length_range, hm] at h2
      have := get (L.length + i) (by simp; omega)
      rw [List.getElem_append_left (by simp; omega), List.getElem_append_right (by omega)] at this
      simp only [Nat.add_sub_cancel_left] at this
      simp [this, len, hL]
  · rw [scan_new hm]
    apply List.ext_getElem
    · simp
    · intro p h1 h2
      simp only [List.length_append, List.length_range'] at h1
      simp only [List.getElem_map, List.getElem_range, origin, hl, ← hL]
      by_cases c1 : p < L.length
      · rw [if_pos c1, ← get p (by simp; omega)]
        rw [List.getElem_append_left (by simp; omega), List.getElem_append_left c1, List.getElem_append_left (by simp; omega), List.getElem_append_left c1]
      · rw [if_neg c1]
        by_cases c2 : p < L.length + (BoxSig.cod l.box).length
        · rw [if_pos c2, List.getElem_append_left (by simp; omega), List.getElem_append_right (by omega)]
          simp [endOf, hl, len, hm]
        · rw [if_neg c2, ← get _ (by simp; omega)]
          rw [List.getElem_append_right (by simp; omega), List.getElem_append_right (by simp; omega)]
          congr 1
          simp; omega

theorem drawBoxes_skel {keep : B → Bool} {fol : Bool} {ty : List O} {all : List (Layer O B)} : ∀ (ls : List (Layer O B)) (a c : List O) (k : Nat) (D : Drawable O B) (scan : List Nat) (minY : ℚ),
    k ≤ all.length → all.drop k = ls → Diagram.Chain a ls c → scan.length = a.length → Inv D scan → (fol = true → ∀ b ∈ D.boxes, -(k : ℚ) + 1 ≤ b.y) → Skel ty all k D scan →
    Skel ty all all.length (drawBoxes keep fol k D scan minY ls).1 (drawBoxes keep fol k D scan minY ls).2.1 := by
  intro ls
  induction ls with
  | nil =>
    intro a c k D scan minY hle hk hch hl I hf S
    have hk' : all.length ≤ k := by simpa using hk
    simp only [drawBoxes]
    have h : k = all.length := by omega
    subst h; exact S
  | cons l ls ih =>
    intro a c k D scan minY hle hk hch hl I hf S
    obtain ⟨rfl, hch⟩ := hch
    have hlt : k < all.length := by
      by_contra h
      rw [List.drop_eq_nil_of_le (by omega)] at hk
      exact absurd hk (by simp)
    have hget : all[k]? = some l := by
      have := congrArg (fun z => z[0]?) hk
      simpa using this
    have hdrop : all.drop (k + 1) = ls := by
      rw [← List.drop_drop, hk]; simp
    obtain ⟨st, hfy, _⟩ := drawBox_step (keep := keep) (fol := fol) (depth := k) I hl hf minY
    have S' : Skel ty all (k + 1) (drawBox keep fol k D scan l).1 (drawBox keep fol k D scan l).2.1 := by
      obtain ⟨L, M, R, rfl, hL, hM, hR⟩ := split_scan hl
      obtain ⟨⟨φ, _, e⟩, _⟩ := makeSpace_spec I (BoxSig.cod l.box).length
      simp only [drawBox, ← hL, ← hM]
      rw [e]
      exact addBox_skel hget (S.mapX φ) hL hM.symm keep _ _
    simp only [drawBoxes]
    refine ih l.cod c (k + 1) _ _ _ hlt hdrop hch st.len st.inv ?_ S'
    intro hfl b hb
    have : b.y ∈ D.boxes.map BoxNode.y ++ [(drawBox keep fol k D scan l).2.2] := by
      rw [← st.ys]; exact List.mem_map_of_mem hb
    push_cast
    rcases List.mem_append.1 this with h | h
    · obtain ⟨c', hc', h⟩ := List.mem_map.1 h
      have := hf hfl c' hc'
      linarith
    · rw [List.mem_singleton.1 h, hfy hfl]; linarith

theorem start_skel (ty : List O) (ls : List (Layer O B)) : Skel ty ls 0 (⟨[], inputs ty, []⟩ : Drawable O B) (List.range ty.length) := by
  refine ⟨by simp [boxList], ?_, by simp [wireList], ?_⟩
  · simp only [endList, List.take_zero, List.flatMap_nil, List.append_nil]
    apply List.ext_getElem
    · simp [inputs]
    · intro i h1 h2
      simp [inputs]
  · simp [origin, endOf]

theorem fromDiagram_skel {keep : B → Bool} {fol : Bool} {d : Diagram O B} {r : Drawable O B} (w : d.WT) (h : fromDiagram keep fol d = .ok r) :
    r.boxes.map (fun b => (b.obj, b.dom, b.cod)) = boxList d.dom.length d.layers d.layers.length ∧
    r.ends.map (fun e => (e.kind, e.obj)) = endList d.dom d.layers d.layers.length ++ d.cod.map (fun o => (EndKind.output, o)) ∧
    r.wires = wireList d.dom.length d.layers d.layers.length ++
      (List.range d.cod.length).map (fun p => (endOf d.dom.length d.layers (origin d.layers d.layers.length p), base d.dom.length d.layers d.layers.length + p)) := by
  have S := drawBoxes_skel (keep := keep) (fol := fol) (ty := d.dom) (all := d.layers) d.layers d.dom d.cod 0 ⟨[], inputs d.dom, []⟩ (List.range d.dom.length) 1 (Nat.zero_le _) rfl w (by simp)
    (start_inv d.dom) (by simp) (start_skel d.dom d.layers)
  obtain ⟨_, J2, _⟩ := drawBoxes_spec (keep := keep) (fol := fol) d.layers d.dom d.cod 0 ⟨[], inputs d.dom, []⟩ (List.range d.dom.length) 1 w (by simp)
    (start_inv d.dom) (by simp) (le_refl _) (by simp)
  rw [fromDiagram_ok h]
  generalize hr : drawBoxes keep fol 0 ⟨[], inputs d.dom, []⟩ (List.range d.dom.length) 1 d.layers = q at *
  refine ⟨?_, ?_, ?_⟩
  · rw [← S.boxes]; simp [Drawable.translate, addOutputs, Function.comp_def]
  · rw [← S.ends]
    simp only [Drawable.translate, addOutputs, List.map_append, List.map_map, Function.comp_def]
    congr 1
    apply List.ext_getElem
    · simp [J2]
    · intro i h1 h2
      simp
  · simp only [Drawable.translate, addOutputs]
    rw [S.wires]
    congr 1
    apply List.ext_getElem
    · simp [J2]
    · intro i h1 h2
      simp only [List.length_map, List.length_range] at h2
      have := congrArg (fun z => z[i]?) S.scan
      rw [List.getElem?_eq_getElem (by omega), List.getElem?_eq_getElem (by simp; omega)] at this
      simp only [List.getElem_map, List.getElem_range, Option.some.injEq] at this
      simp [this, S.len]

end Draw
end Lambeq
