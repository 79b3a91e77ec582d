import Verif.Tensor.Category

/-!
# Evaluation of tensor diagrams (C53, C67, C68)
-/

namespace Lambeq
open Diagram
set_option linter.unusedSectionVars false
set_option linter.unusedSimpArgs false

theorem map_getD_left (u v : List Nat) : (List.range u.length).map (fun k => (u ++ v).getD k 0) = u := by
  refine List.ext_getElem (by simp) (fun k h1 h2 => ?_)
  simp [List.getD_eq_getElem?_getD, List.getElem?_append_left h2, List.getElem?_eq_getElem h2]

theorem map_getD_right (u v : List Nat) : (List.range v.length).map (fun k => (u ++ v).getD (u.length + k) 0) = v := by
  refine List.ext_getElem (by simp) (fun k h1 h2 => ?_)
  simp [List.getD_eq_getElem?_getD, List.getElem?_append_right, h2]

theorem tensor_range_split (a b : Nat) : List.range (a + b) = List.range a ++ (List.range b).map (a + ·) := List.range_add

/-- The axes of the two groups, each reversed. -/
def destRev (a b : Nat) : List Nat := (List.range a).reverse ++ ((List.range b).map (a + ·)).reverse

/-- The axes of the two groups exchanged. -/
def destAdj (a b : Nat) : List Nat := (List.range a).map (b + ·) ++ List.range b

theorem permute_destRev (u v : List Nat) : NdArray.permute (destRev u.length v.length) (u ++ v) = u.reverse ++ v.reverse := by
  unfold NdArray.permute destRev
  rw [List.map_append, List.map_reverse, List.map_reverse, List.map_map, map_getD_left]
  have := map_getD_right u v
  simp only [Function.comp_def]
  rw [this]

theorem permute_destAdj (u v : List Nat) : NdArray.permute (destAdj u.length v.length) (v ++ u) = u ++ v := by
  unfold NdArray.permute destAdj
  rw [List.map_append, List.map_map, map_getD_left]
  have := map_getD_right v u
  simp only [Function.comp_def]
  rw [this]

theorem destRev_nodup (a b : Nat) : (destRev a b).Nodup := by
  have : (destRev a b).Perm (List.range (a + b)) := by
    rw [tensor_range_split]
    exact (List.reverse_perm _).append (List.reverse_perm _)
  exact this.nodup_iff.2 List.nodup_range

theorem destAdj_nodup (a b : Nat) : (destAdj a b).Nodup := by
  have : (destAdj a b).Perm (List.range (b + a)) := by
    rw [tensor_range_split]
    exact List.perm_append_comm
  exact this.nodup_iff.2 List.nodup_range

variable {R : Type} [CommSemiring R] [StarRing R] [Inhabited R]

theorem moveAll_of_permute (a : NdArray R) (dest : List Nat) (hd : dest.length = a.shape.length) (hn : dest.Nodup)
    (hlt : ∀ k ∈ dest, k < a.shape.length) (dest' : List Int)
    (hnorm : dest'.map (fun i => if i < 0 then ((a.shape.length : Int) + i).toNat else i.toNat) = dest)
    (hb : ∀ i ∈ dest', -(a.shape.length : Int) ≤ i ∧ i < a.shape.length)
    (shape : List Nat) (hs : shape.length = a.shape.length) (hsh : NdArray.permute dest shape = a.shape) :
    a.moveAll dest' = .ok (NdArray.ofFn shape (fun y => a.get (NdArray.permute dest y))) := by
  refine NdArray.moveAll_spec a dest hd hn hlt dest' (by rw [← hnorm]; simp) hnorm hb shape hs (fun i h => ?_)
  have : (NdArray.permute dest shape).getD i 0 = a.shape.getD i 0 := by rw [hsh]
  rw [← this]
  simp [NdArray.permute, List.getD_eq_getElem?_getD, List.getElem?_map, List.getElem?_eq_getElem h]

namespace TBox

/-- The conjugate has the axes of each group reversed and the entries conjugated. -/
theorem conjugateArray_spec (d c : List Nat) (a : NdArray R) (hok : a.OK) (hs : a.shape = d.reverse ++ c.reverse) :
    ∃ r : NdArray R, conjugateArray d c a = .ok r ∧ r.OK ∧ r.shape = d ++ c ∧
      ∀ i o, InShape d i → InShape c o → r.get (i ++ o) = star (a.get (i.reverse ++ o.reverse)) := by
  have hl : a.shape.length = d.length + c.length := by rw [hs]; simp
  have hm := moveAll_of_permute a (destRev d.length c.length) (by simp [destRev, hl]) (destRev_nodup _ _)
    (by
      intro k hk
      simp only [destRev, List.mem_append, List.mem_reverse, List.mem_range, List.mem_map] at hk
      rcases hk with hk | ⟨j, hj, rfl⟩ <;> omega)
    ((List.range (d.length + c.length)).map (fun i : Nat => (d.length : Int) - i - 1))
    (by
      rw [List.map_map, tensor_range_split, List.map_append, destRev]
      congr 1
      · refine List.ext_getElem (by simp) (fun k h1 h2 => ?_)
        simp at h1
        simp
        rw [if_neg (by omega)]
        omega
      · refine List.ext_getElem (by simp) (fun k h1 h2 => ?_)
        simp at h1
        simp
        rw [if_pos (by omega), hl]
        omega)
    (by
      intro i hi
      obtain ⟨k, hk, rfl⟩ := List.mem_map.1 hi
      have := List.mem_range.1 hk
      rw [hl]
      omega)
    (d ++ c) (by simp [hl]) (by rw [permute_destRev, hs])
  refine ⟨(NdArray.ofFn (d ++ c) (fun y => a.get (NdArray.permute (destRev d.length c.length) y))).conj, by simp only [conjugateArray, hm], NdArray.conj_ok (NdArray.ofFn_ok _ _), rfl, fun i o hi ho => ?_⟩
  rw [NdArray.get_conj _ (NdArray.ofFn_ok _ _) (InShape.append hi ho), NdArray.get_ofFn _ _ (InShape.append hi ho),
    hi.length_eq, ho.length_eq, permute_destRev]

/-- The adjoint has its two groups of axes exchanged and the entries conjugated. -/
theorem adjointArray_spec (d c : List Nat) (a : NdArray R) (hok : a.OK) (hs : a.shape = d ++ c) :
    ∃ r : NdArray R, adjointArray d c a = .ok r ∧ r.OK ∧ r.shape = c ++ d ∧
      ∀ i o, InShape d i → InShape c o → r.get (o ++ i) = star (a.get (i ++ o)) := by
  have hl : a.shape.length = d.length + c.length := by rw [hs]; simp
  have hm := moveAll_of_permute a (destAdj d.length c.length) (by simp [destAdj, hl]) (destAdj_nodup _ _)
    (by
      intro k hk
      simp only [destAdj, List.mem_append, List.mem_range, List.mem_map] at hk
      rcases hk with ⟨j, hj, rfl⟩ | hk <;> omega)
    ((List.range (d.length + c.length)).map (fun i : Nat => if i < d.length then (i : Int) + c.length else (i : Int) - d.length))
    (by
      rw [List.map_map, tensor_range_split, List.map_append, destAdj]
      congr 1
      · refine List.ext_getElem (by simp) (fun k h1 h2 => ?_)
        simp at h1
        simp [h1]
        rw [if_neg (by omega)]
        omega
      · refine List.ext_getElem (by simp) (fun k h1 h2 => ?_)
        simp)
    (by
      intro i hi
      obtain ⟨k, hk, rfl⟩ := List.mem_map.1 hi
      have := List.mem_range.1 hk
      rw [hl]
      split <;> omega)
    (c ++ d) (by simp [hl]; omega) (by rw [permute_destAdj, hs])
  refine ⟨(NdArray.ofFn (c ++ d) (fun y => a.get (NdArray.permute (destAdj d.length c.length) y))).conj, by simp only [adjointArray, hm], NdArray.conj_ok (NdArray.ofFn_ok _ _), rfl, fun i o hi ho => ?_⟩
  rw [NdArray.get_conj _ (NdArray.ofFn_ok _ _) (InShape.append ho hi), NdArray.get_ofFn _ _ (InShape.append ho hi),
    hi.length_eq, ho.length_eq, permute_destAdj]

/-- Boxes with data have an array of the right shape. -/
theorem HasData.array_ok {b : TBox R} (h : b.HasData) : ∃ a, b.array = .ok a ∧ a.OK ∧ a.shape = b.dom ++ b.cod := by
  induction b with
  | gen n d c data z =>
    obtain ⟨a, rfl, hok, h0, h1⟩ := h
    by_cases hz : z % 2 = 1
    · obtain ⟨r, e, rok, rs, _⟩ := conjugateArray_spec d c a hok (h1 hz)
      refine ⟨r, ?_, rok, rs⟩
      simp only [array, hz, if_true, e]
      rw [← rs, NdArray.reshape_self r rok]
    · have h0 := h0 (by omega)
      exact ⟨⟨d ++ c, a.flat⟩, by simp only [array, hz, if_false, NdArray.reshape, h0, if_true], h0, rfl⟩
  | daggered b ih =>
    obtain ⟨a, e, hok, hs⟩ := ih h
    obtain ⟨r, e', rok, rs, _⟩ := adjointArray_spec b.dom b.cod a hok hs
    exact ⟨r, by simp only [array, e, e'], rok, rs⟩
  | _ => exact h.elim

theorem cornerArray_ok (p : Nat) : (cornerArray p : NdArray R).flat.length = p * p := by simp [cornerArray]

theorem capArray (l : Nat) : (TBox.cap l l : TBox R).array = .ok ⟨[l, l], (cornerArray l : NdArray R).flat⟩ := by
  simp only [array, NdArray.reshape, cornerArray_ok]
  simp

/-- The entries of a cap: one in the first and the last corner of the matrix, zero elsewhere. -/
theorem get_cap (l i j : Nat) (hi : i < l) (hj : j < l) :
    (⟨[l, l], (cornerArray l : NdArray R).flat⟩ : NdArray R).get [i, j] = if (i = 0 ∧ j = 0) ∨ (i + 1 = l ∧ j + 1 = l) then 1 else 0 := by
  have hlt : i * l + j < l * l := by
    calc i * l + j < i * l + l := by omega
      _ = (i + 1) * l := by ring
      _ ≤ l * l := Nat.mul_le_mul_right _ hi
  have h0 : i * l + j = 0 ↔ i = 0 ∧ j = 0 := by
    constructor
    · intro h
      have hj0 : j = 0 := by omega
      have : i * l = 0 := by omega
      rcases Nat.mul_eq_zero.1 this with h | h
      · exact ⟨h, hj0⟩
      · omega
    · rintro ⟨rfl, rfl⟩; simp
  have h1 : i * l + j = l * l - 1 ↔ i + 1 = l ∧ j + 1 = l := by
    constructor
    · intro h
      have hil : i + 1 = l := by
        by_contra hne
        have : i + 2 ≤ l := by omega
        have := Nat.mul_le_mul_right l this
        have e : (i + 2) * l = i * l + l + l := by ring
        omega
      have e : l * l = i * l + l := by rw [← hil]; ring
      exact ⟨hil, by omega⟩
    · rintro ⟨h1, h2⟩
      have e : l * l = i * l + l := by rw [← h1]; ring
      omega
  simp only [NdArray.get, ravel, cornerArray, List.prod_cons, List.prod_nil, Nat.mul_one, Nat.add_zero]
  rw [List.getD_eq_getElem?_getD, List.getElem?_set]
  by_cases g1 : l * l - 1 = i * l + j
  · rw [if_pos g1, if_pos (by simp; omega), if_pos (Or.inr (h1.1 g1.symm))]
    rfl
  · rw [if_neg g1, List.getElem?_set]
    have g1' : ¬ (i + 1 = l ∧ j + 1 = l) := fun h => g1 (h1.2 h).symm
    by_cases g2 : 0 = i * l + j
    · rw [if_pos g2, if_pos (by simp; omega), if_pos (Or.inl (h0.1 g2.symm))]
      rfl
    · rw [if_neg g2, if_neg (by rintro (h | h); exact g2 (h0.2 h).symm; exact g1' h)]
      simp [List.getElem?_replicate, hlt]

theorem Evaluable.ready {b : TBox R} (h : b.Evaluable) : tnCat.Ready b := by
  have hdata : ∀ b : TBox R, b.HasData → tnCat.kind b = .other → tnCat.Ready b := by
    intro b h hk
    obtain ⟨a, e, hok, hs⟩ := h.array_ok
    simp only [TnCat.Ready, hk]
    exact ⟨a, e, hok, by rw [hs]; simp [tnCat]; rfl⟩
  cases b with
  | gen n d c data z => exact hdata _ h rfl
  | daggered b => exact hdata _ h rfl
  | cup l r => exact ⟨l, r, rfl, rfl, h⟩
  | cap l r =>
    obtain ⟨rfl, _⟩ := h
    exact ⟨_, capArray l, by simp [NdArray.OK, cornerArray], rfl⟩
  | swap l r => exact ⟨l, r, rfl, rfl⟩
  | spider t m n =>
    refine ⟨_, rfl, NdArray.ofFn_ok _ _, ?_⟩
    show List.replicate (m + n) t = _
    simp only [tnCat, BoxSig.dom, BoxSig.cod, dom, cod, sig, List.map_append, List.map_replicate, List.replicate_append_replicate]

end TBox

/-- A diagram of the tensor category all of whose boxes can be evaluated. -/
structure EvalOK (d : Diagram Nat (TBox R)) : Prop where
  wt : d.WT
  boxes : ∀ l ∈ d.layers, l.box.Evaluable

/-- The value of a diagram: `d.eval()`, as a function of the indices of its inputs followed by those of its outputs. -/
def tensorEval (d : Diagram Nat (TBox R)) : Except PyErr (List Nat → R) := TBox.tnCat.eval d

theorem tensorEval_spec {d : Diagram Nat (TBox R)} (h : EvalOK d) :
    ∃ F, tensorEval d = .ok F ∧ ∀ x y, InShape d.dom x → InShape d.cod y → F (x ++ y) = TBox.tnCat.interp.mat d x y := by
  obtain ⟨F, h1, h2⟩ := TBox.tnCat.eval_spec h.wt (fun l _ e he => by simp [TBox.tnCat] at he)
    (fun l hl b hb => by
      simp only [TBox.tnCat, Option.getD_none, ofBox, boxes, List.map_cons, List.map_nil, List.mem_singleton] at hb
      subst hb
      exact (h.boxes l hl).ready)
    (fun l _ e he => by simp [TBox.tnCat] at he)
  refine ⟨F, h1, fun x y hx hy => h2 x ?_ y ?_⟩
  · rw [idx_eq_shapeIdx, mem_shapeIdx]; simpa [TnCat.interp, TBox.tnCat] using hx
  · rw [idx_eq_shapeIdx, mem_shapeIdx]; simpa [TnCat.interp, TBox.tnCat] using hy

end Lambeq
