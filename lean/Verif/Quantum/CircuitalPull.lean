import Verif.Quantum.Circuital
import Verif.Quantum.Unitary

/-!
# Conversion to circuital form: idle wires (C84)

Adding an idle qubit wire to a list of layers with `pull_qubit_through` adds an idle wire to its meaning.
-/

namespace Lambeq
open Diagram
set_option linter.unusedSectionVars false
set_option linter.unusedSimpArgs false

/-! ## Insertion into lists -/

theorem ins_length {α : Type} {p : Nat} {a : α} {l : List α} : (ins p a l).length = l.length + 1 := by
  simp only [ins, List.length_append, List.length_cons, List.length_take, List.length_drop]; omega

theorem ins_left {α : Type} {p : Nat} {a : α} {l r : List α} (h : p ≤ l.length) : ins p a (l ++ r) = ins p a l ++ r := by
  simp only [ins, List.take_append_of_le_length h, List.drop_append_of_le_length h, List.append_assoc, List.cons_append]

theorem ins_right {α : Type} {p : Nat} {a : α} {l r : List α} (h : l.length ≤ p) : ins p a (l ++ r) = l ++ ins (p - l.length) a r := by
  simp only [ins, List.take_append, List.drop_append, List.take_of_length_le h, List.drop_of_length_le h, List.append_assoc, List.nil_append]

theorem ins_at {α : Type} {a : α} {l r : List α} : ins l.length a (l ++ r) = l ++ a :: r := by
  rw [ins_right (Nat.le_refl _), Nat.sub_self]; rfl

theorem ins_map {α β : Type} (f : α → β) {p : Nat} {a : α} {l : List α} : (ins p a l).map f = ins p (f a) (l.map f) := by
  simp only [ins, List.map_append, List.map_cons, List.map_take, List.map_drop]

theorem ins_replicate {α : Type} {p n : Nat} {a : α} (h : p ≤ n) : ins p a (List.replicate n a) = List.replicate (n + 1) a := by
  simp only [ins, List.take_replicate, List.drop_replicate, ← List.replicate_succ, List.replicate_append_replicate]
  congr 1; omega

/-- Where an old position is found after the insertion at `p`. -/
def shift (p j : Nat) : Nat := if j < p then j else j + 1

theorem getD_ins_shift {p : Nat} {v : Nat} {x : List Nat} (hp : p ≤ x.length) (j : Nat) : (ins p v x).getD (shift p j) 0 = x.getD j 0 := by
  simp only [List.getD_eq_getElem?_getD, ins, shift]
  split
  · rename_i h
    rw [List.getElem?_append_left (by rw [List.length_take]; omega), List.getElem?_take_of_lt h]
  · rename_i h
    rw [List.getElem?_append_right (by rw [List.length_take]; omega), List.length_take, Nat.min_eq_left hp]
    have : j + 1 - p = (j - p) + 1 := by omega
    rw [this, List.getElem?_cons_succ, List.getElem?_drop]
    congr 2; omega

theorem getD_ins_self {p : Nat} {v : Nat} {x : List Nat} (hp : p ≤ x.length) : (ins p v x).getD p 0 = v := by
  simp only [List.getD_eq_getElem?_getD, ins]
  rw [List.getElem?_append_right (by rw [List.length_take]; omega), List.length_take, Nat.min_eq_left hp, Nat.sub_self]
  rfl

theorem shift_surj {p k : Nat} (h : k ≠ p) : ∃ j, k = shift p j := by
  rcases Nat.lt_or_gt_of_ne h with h | h
  · exact ⟨k, by simp [shift, h]⟩
  · exact ⟨k - 1, by simp only [shift]; rw [if_neg (by omega)]; omega⟩

theorem shift_inj {p i j : Nat} (h : shift p i = shift p j) : i = j := by
  simp only [shift] at h; split at h <;> split at h <;> omega

theorem shift_ne (p j : Nat) : shift p j ≠ p := by
  simp only [shift]; split <;> omega

namespace QBox
noncomputable section

/-- An operator with controls does nothing on an additional wire. -/
theorem ctrlOp_ins {n p : Nat} {P : List Nat} {t : Nat} {G : Nat → Nat → ℂ} {x y : List Nat} {v w : Nat} (hx : x.length = n) (hy : y.length = n) (hp : p ≤ n) :
    ctrlOp (n + 1) (P.map (shift p)) (shift p t) G (ins p v x) (ins p w y) = if v = w then ctrlOp n P t G x y else 0 := by
  have hpx : p ≤ x.length := by omega
  have hpy : p ≤ y.length := by omega
  have key : (∀ k < n + 1, k ≠ shift p t → (ins p v x).getD k 0 = (ins p w y).getD k 0) ↔ v = w ∧ ∀ k < n, k ≠ t → x.getD k 0 = y.getD k 0 := by
    constructor
    · intro h
      refine ⟨?_, fun k hk hkt => ?_⟩
      · have := h p (by omega) (fun e => shift_ne p t e.symm)
        rwa [getD_ins_self hpx, getD_ins_self hpy] at this
      · have := h (shift p k) (by simp only [shift]; split <;> omega) (fun e => hkt (shift_inj e))
        rwa [getD_ins_shift hpx, getD_ins_shift hpy] at this
    · rintro ⟨rfl, h⟩ k hk hkt
      by_cases hkp : k = p
      · subst hkp; rw [getD_ins_self hpx, getD_ins_self hpy]
      · obtain ⟨j, rfl⟩ := shift_surj hkp
        rw [getD_ins_shift hpx, getD_ins_shift hpy]
        refine h j ?_ (fun e => hkt (by rw [e]))
        simp only [shift] at hk hkp; split at hk <;> omega
  unfold ctrlOp
  rw [getD_ins_shift hpx, getD_ins_shift hpy]
  refine (if_congr key rfl rfl).trans ?_
  by_cases hv : v = w
  · simp only [hv, true_and, if_true, List.mem_map, forall_exists_index, and_imp, forall_apply_eq_imp_iff₂, getD_ins_shift hpy]
  · simp only [hv, false_and, if_false]

/-! ## Distances -/

/-- The nestings of controls for which `pull_qubit_through` computes the right distances: all controls on the left of the target, in the order of
the nesting, or at most two controls, all on the right. -/
def Stretchable (ds : List Int) : Prop := (∀ d ∈ ds, 0 < d) ∨ (ds.length ≤ 2 ∧ ∀ d ∈ ds, d < 0)

theorem foldl_min_pos {l : List Int} {a : Int} (h : ∀ d ∈ l, a ≤ d) : l.foldl min a = a := by
  induction l with
  | nil => rfl
  | cons d l ih =>
    rw [List.foldl_cons, min_eq_left (h d (by simp))]
    exact ih (fun d hd => h d (List.mem_cons_of_mem _ hd))

theorem distsLoop_nonneg {ds acc : List Int} (h : ∀ d ∈ ds, 0 < d) (ha : ∀ d ∈ acc, 0 ≤ d) : ∀ d ∈ distsLoop acc ds, 0 ≤ d := by
  induction ds generalizing acc with
  | nil => exact ha
  | cons d ds ih =>
    refine ih (fun d hd => h d (List.mem_cons_of_mem _ hd)) ?_
    intro e he
    rcases List.mem_append.1 he with he | he
    · exact ha e he
    · rw [List.mem_singleton.1 he]
      have := h d (by simp)
      have := List.sum_nonneg ha
      omega

theorem stretchLoop_right {ds : List Int} {q prev : Int} (h : ∀ d ∈ ds, 0 < d) (hq : q ≤ prev) : stretchLoop q prev ds = ds := by
  induction ds generalizing prev with
  | nil => rfl
  | cons d ds ih =>
    have hd := h d (by simp)
    simp only [stretchLoop]
    rw [ih (fun d hd => h d (List.mem_cons_of_mem _ hd)) (by omega), if_neg (by omega), if_neg (by omega)]

theorem stretchLoop_pos {ds : List Int} {p : Nat} {prev : Int} (h : ∀ d ∈ ds, 0 < d) (hp : 0 < p) (hw : p < width ds) :
    width (stretchLoop (prev + p) prev ds) = width ds + 1 ∧ targetPos (stretchLoop (prev + p) prev ds) = shift p (targetPos ds) ∧
    controlPos (stretchLoop (prev + p) prev ds) = (controlPos ds).map (shift p) ∧ (∀ d ∈ stretchLoop (prev + p) prev ds, 0 < d) := by
  induction ds generalizing p prev with
  | nil => simp only [width] at hw; omega
  | cons d ds ih =>
    have hd := h d (by simp)
    have hds : ∀ d ∈ ds, 0 < d := fun d hd => h d (List.mem_cons_of_mem _ hd)
    simp only [width] at hw
    by_cases hpd : (p : Int) ≤ d
    · have e : stretchLoop (prev + p) prev (d :: ds) = (d + 1) :: ds := by
        simp only [stretchLoop]
        rw [stretchLoop_right hds (by omega), if_pos (by omega)]
      rw [e]
      refine ⟨by simp only [width]; omega, ?_, ?_, ?_⟩
      · simp only [targetPos]; simp only [shift]; rw [if_neg (by omega)]; omega
      · simp only [controlPos, List.map_cons, List.map_map]
        rw [if_pos hd, if_pos (by omega)]
        congr 1
        · simp [shift, hp]
        · refine List.map_congr_left (fun j _ => ?_)
          simp only [Function.comp, shift]; rw [if_neg (by omega)]; omega
      · intro e he
        rcases List.mem_cons.1 he with rfl | he
        · omega
        · exact hds e he
    · obtain ⟨k, rfl⟩ : ∃ k : Nat, p = d.toNat + k := ⟨p - d.toNat, by omega⟩
      have e : stretchLoop (prev + (d.toNat + k : Nat)) prev (d :: ds) = d :: stretchLoop ((prev + d) + k) (prev + d) ds := by
        simp only [stretchLoop]
        rw [if_neg (by omega), if_neg (by omega)]
        congr 2
        omega
      obtain ⟨i1, i2, i3, i4⟩ := ih (p := k) (prev := prev + d) hds (by omega) (by omega)
      rw [e]
      refine ⟨by simp only [width, i1]; omega, ?_, ?_, ?_⟩
      · simp only [targetPos, i2]; simp only [shift]
        split <;> split <;> omega
      · simp only [controlPos, i1, i3, List.map_cons, List.map_map]
        simp only [if_pos hd]
        congr 1
        · simp only [shift]; rw [if_pos (by omega)]
        · refine List.map_congr_left (fun j _ => ?_)
          simp only [Function.comp, shift]
          split <;> split <;> omega
      · intro e he
        rcases List.mem_cons.1 he with rfl | he
        · exact hd
        · exact i4 e he

/-- The new distances describe the old gate with an idle wire at the position `p`. -/
theorem stretch_dists {ds : List Int} (h : Stretchable ds) {p off : Nat} (hp : 0 < p) (hw : p < width ds) :
    let ds' := stretchLoop ((off + p : Nat) : Int) (firstPos off ds) ds
    ds'.length = ds.length ∧ Stretchable ds' ∧ width ds' = width ds + 1 ∧ targetPos ds' = shift p (targetPos ds) ∧ controlPos ds' = (controlPos ds).map (shift p) := by
  have hlen : ∀ (l : List Int) (q prev : Int), (stretchLoop q prev l).length = l.length := by
    intro l
    induction l with
    | nil => intro q prev; rfl
    | cons d l ih => intro q prev; simp [stretchLoop, ih]
  refine ⟨hlen _ _ _, ?_⟩
  rcases h with h | ⟨h2, h⟩
  · have e : firstPos off ds = off := by
      rw [firstPos, foldl_min_pos (fun d hd => distsLoop_nonneg h (by simp) d hd)]; omega
    rw [e]
    have := stretchLoop_pos (prev := off) h hp hw
    rw [show ((off : Int) + (p : Int)) = ((off + p : Nat) : Int) by omega] at this
    exact ⟨.inl this.2.2.2, this.1, this.2.1, this.2.2.1⟩
  · match ds, h2, h with
    | [], _, _ => simp only [width] at hw; omega
    | [d], _, h =>
      have hd := h d (by simp)
      simp only [width] at hw
      have e : firstPos off [d] = off - d := by
        simp only [firstPos, distsLoop, List.sum_cons, List.sum_nil, List.cons_append, List.nil_append, List.foldl_cons, List.foldl_nil]
        omega
      have e2 : stretchLoop ((off + p : Nat) : Int) (firstPos off [d]) [d] = [d - 1] := by
        rw [e]
        simp only [stretchLoop]
        rw [if_neg (by omega), if_pos (by omega)]
      rw [e2]
      refine ⟨.inr ⟨by simp, by simp; omega⟩, by simp only [width]; omega, ?_, ?_⟩
      · simp only [targetPos]; simp only [shift]; split <;> omega
      · simp only [controlPos, width, List.map_cons, List.map_nil]
        rw [if_neg (by omega), if_neg (by omega)]
        simp only [shift]
        congr 1
        split <;> omega
    | [d, d'], _, h =>
      have hd := h d (by simp)
      have hd' := h d' (by simp)
      simp only [width] at hw
      have e : firstPos off [d, d'] = off - d - d' := by
        simp only [firstPos, distsLoop, List.sum_cons, List.sum_nil, List.cons_append, List.nil_append, List.foldl_cons, List.foldl_nil]
        omega
      by_cases hc : (p : Int) ≤ -d'
      · have e2 : stretchLoop ((off + p : Nat) : Int) (firstPos off [d, d']) [d, d'] = [d, d' - 1] := by
          rw [e]
          simp only [stretchLoop]
          rw [if_neg (by omega), if_neg (by omega), if_neg (by omega), if_pos (by omega)]
        rw [e2]
        refine ⟨.inr ⟨by simp, by simp; omega⟩, by simp only [width]; omega, ?_, ?_⟩
        · simp only [targetPos]; simp only [shift]; split <;> omega
        · simp only [controlPos, width, List.map_cons, List.map_nil]
          simp only [if_neg (show ¬ d > 0 by omega), if_neg (show ¬ d' > 0 by omega), if_neg (show ¬ d - 1 > 0 by omega), if_neg (show ¬ d' - 1 > 0 by omega), shift]
          congr 1
          · split <;> omega
          · congr 1; split <;> omega
      · have e2 : stretchLoop ((off + p : Nat) : Int) (firstPos off [d, d']) [d, d'] = [d - 1, d'] := by
          rw [e]
          simp only [stretchLoop]
          rw [if_neg (by omega), if_pos (by omega), if_neg (by omega), if_neg (by omega)]
        rw [e2]
        refine ⟨.inr ⟨by simp, by simp; omega⟩, by simp only [width]; omega, ?_, ?_⟩
        · simp only [targetPos]; simp only [shift]; split <;> omega
        · simp only [controlPos, width, List.map_cons, List.map_nil]
          simp only [if_neg (show ¬ d > 0 by omega), if_neg (show ¬ d' > 0 by omega), if_neg (show ¬ d - 1 > 0 by omega), if_neg (show ¬ d' - 1 > 0 by omega), shift]
          congr 1
          · split <;> omega
          · congr 1; split <;> omega

end
end QBox
end Lambeq
