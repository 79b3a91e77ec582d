import Verif.Text.TreeNodes

/-!
# Pregroup trees and their lists: specification and proofs (C87)
-/

namespace Lambeq
namespace PTree
set_option linter.unusedSimpArgs false
set_option linter.unusedVariables false

/-! ## Specification -/

/-- The trees are equal up to the order of children. -/
inductive SameTree : PTree → PTree → Prop
  | mk (w : String) (i : Nat) (t : Ty) (cs cs' ds : List PTree) : cs.Perm cs' → List.Forall₂ SameTree cs' ds → SameTree (node w i t cs) (node w i t ds)

/-- The type is not empty and the names in it can be read back from strings. -/
def CleanTy (t : Ty) : Prop := t ≠ [] ∧ ∀ o ∈ t, '.' ∉ o.name.toList ∧ '@' ∉ o.name.toList

/-! ## Types as strings -/

theorem splitDot_append (x : List Char) (hx : '.' ∉ x) (y : List Char) (h : List Char) (t : List (List Char)) (hy : splitDot y = h :: t) :
    splitDot (x ++ y) = (x ++ h) :: t := by
  induction x with
  | nil => simpa using hy
  | cons c x ih =>
    simp only [List.mem_cons, not_or] at hx
    rw [List.cons_append, splitDot, if_neg (fun e => hx.1 e.symm), ih hx.2]
    rfl

theorem splitDot_reps (k : Nat) (c : Char) (hc : c ≠ '.') : splitDot (List.replicate k ['.', c]).flatten = [] :: List.replicate k [c] := by
  induction k with
  | zero => rfl
  | succ k ih =>
    simp only [List.replicate_succ, List.flatten_cons, List.cons_append, List.nil_append]
    rw [splitDot, if_pos rfl, splitDot, if_neg hc, ih]

theorem foldl_r (k : Nat) (o : Ob) : (List.replicate k ['r']).foldl
    (fun (o : Ob) r => if r = ['r'] then ⟨o.name, o.z + 1⟩ else if r = ['l'] then ⟨o.name, o.z - 1⟩ else o) o = ⟨o.name, o.z + k⟩ := by
  induction k generalizing o with
  | zero => simp
  | succ k ih =>
    rw [List.replicate_succ, List.foldl_cons, ih]
    simp; omega

theorem foldl_l (k : Nat) (o : Ob) : (List.replicate k ['l']).foldl
    (fun (o : Ob) r => if r = ['r'] then ⟨o.name, o.z + 1⟩ else if r = ['l'] then ⟨o.name, o.z - 1⟩ else o) o = ⟨o.name, o.z - k⟩ := by
  induction k generalizing o with
  | zero => simp
  | succ k ih =>
    rw [List.replicate_succ, List.foldl_cons, ih]
    simp; omega

theorem strToOb_obStr (o : Ob) (h : '.' ∉ o.name.toList) : strToOb (obStr o) = o := by
  obtain ⟨n, z⟩ := o
  simp only at h
  rcases le_total 0 z with hz | hz
  · have e : (-z).toNat = 0 := by omega
    have : splitDot (obStr ⟨n, z⟩) = n.toList :: List.replicate z.toNat ['r'] := by
      simp only [obStr, e, List.replicate_zero, List.flatten_nil, List.append_nil]
      have := splitDot_append n.toList h _ _ _ (splitDot_reps z.toNat 'r' (by decide))
      simpa using this
    rw [strToOb, this]
    simp only [foldl_r, String.ofList_toList]
    congr 1; omega
  · have e : z.toNat = 0 := by omega
    have : splitDot (obStr ⟨n, z⟩) = n.toList :: List.replicate (-z).toNat ['l'] := by
      simp only [obStr, e, List.replicate_zero, List.flatten_nil, List.append_nil]
      have := splitDot_append n.toList h _ _ _ (splitDot_reps (-z).toNat 'l' (by decide))
      simpa using this
    rw [strToOb, this]
    simp only [foldl_l, String.ofList_toList]
    congr 1; omega

theorem obStr_noAt (o : Ob) (h : '@' ∉ o.name.toList) : '@' ∉ obStr o := by
  simp only [obStr, List.mem_append, List.mem_flatten, List.mem_replicate, not_or, not_exists, not_and]
  refine ⟨⟨h, ?_⟩, ?_⟩
  · rintro l ⟨_, rfl⟩; decide
  · rintro l ⟨_, rfl⟩; decide

theorem splitAt_end (x : List Char) (hx : '@' ∉ x) : splitAtAux 0 x = [x] := by
  induction x with
  | nil => rfl
  | cons c x ih =>
    simp only [List.mem_cons, not_or] at hx
    rw [splitAtAux, if_neg, ih hx.2]
    rintro ⟨_, h⟩
    cases x with
    | nil => simp at h
    | cons d x => cases x <;> simp_all

theorem splitAt_sep (x : List Char) (hx : '@' ∉ x) (y : List Char) : splitAtAux 0 (x ++ ([' ', '@', ' '] ++ y)) = x :: splitAtAux 0 y := by
  induction x with
  | nil => simp [splitAtAux]
  | cons c x ih =>
    simp only [List.mem_cons, not_or] at hx
    rw [List.cons_append, splitAtAux, if_neg, ih hx.2]
    rintro ⟨_, h⟩
    cases x with
    | nil => simp at h
    | cons d x => cases x <;> simp_all

theorem strToTy_tyStr (t : Ty) (h : CleanTy t) : strToTy (tyStr t) = t := by
  obtain ⟨hn, h⟩ := h
  cases t with
  | nil => simp at hn
  | cons o os =>
    clear hn
    rw [strToTy, splitAt, tyStr]
    induction os generalizing o with
    | nil =>
      have := h o (by simp)
      simp only [List.map_nil, List.flatten_nil, List.append_nil]
      rw [splitAt_end _ (obStr_noAt o this.2)]
      simp [strToOb_obStr o this.1]
    | cons p os ih =>
      have := h o (by simp)
      rw [List.map_cons, List.flatten_cons, List.append_assoc, splitAt_sep _ (obStr_noAt o this.2), List.map_cons, strToOb_obStr o this.1,
        ih p (fun q hq => h q (List.mem_cons_of_mem _ hq))]

/-! ## The nodes -/

theorem flats_eq (par : Int) (cs : List PTree) : flats par cs = cs.flatMap (flat par) := by
  induction cs with
  | nil => rfl
  | cons c cs ih => simp [flats, ih]

theorem flat_perm (t : PTree) (par : Int) : (t.flat par).Perm (t.withParents par) := by
  induction t using ind' generalizing par with
  | H w i t cs ih =>
    rw [flat, withParents_node, flats_eq]
    refine (List.perm_insertionSort _ _).trans (List.Perm.cons _ ?_)
    exact List.Perm.flatMap_left _ (fun c hc => ih c hc i)

theorem flat_sorted (t : PTree) (par : Int) : (t.flat par).Pairwise (fun a b => a.2.ind ≤ b.2.ind) := by
  obtain ⟨w, i, ty, cs⟩ := t
  rw [flat]
  have : Std.Total (fun a b : Int × PTree => a.2.ind ≤ b.2.ind) := ⟨fun a b => le_total _ _⟩
  have : IsTrans (Int × PTree) (fun a b => a.2.ind ≤ b.2.ind) := ⟨fun a b c h1 h2 => le_trans h1 h2⟩
  exact List.pairwise_insertionSort _ _

theorem flat_ne_nil (t : PTree) (par : Int) : t.flat par ≠ [] := by
  intro h
  have := (flat_perm t par).length_eq
  obtain ⟨w, i, ty, cs⟩ := t
  rw [h, withParents_node] at this
  simp at this

theorem last_max {l : List (Int × PTree)} (hs : l.Pairwise (fun a b => a.2.ind ≤ b.2.ind)) {x : Int × PTree} (hx : x ∈ l) :
    x.2.ind < (l.getLast?.map (fun x => x.2.ind + 1)).getD 0 := by
  induction l generalizing x with
  | nil => simp at hx
  | cons a l ih =>
    cases l with
    | nil => simp at hx; subst hx; simp
    | cons b l =>
      rw [List.getLast?_cons_cons]
      rcases List.mem_cons.1 hx with rfl | hx
      · have := hs
        rw [List.pairwise_cons] at this
        refine lt_of_le_of_lt (this.1 b (by simp)) ?_
        exact ih hs.tail (show b ∈ b :: l by simp)
      · exact ih hs.tail hx

theorem filter_flatten' (l : List (Int × PTree)) (n : Nat) :
    (((List.range n).map (fun (i : Nat) => l.filter (fun x => x.2.ind == i))).flatten).Perm (l.filter (fun x => decide (x.2.ind < n))) := by
  induction n with
  | zero => simp
  | succ n ih =>
    rw [List.range_succ, List.map_append, List.flatten_append]
    refine (List.Perm.append_right _ ih).trans ?_
    refine List.Perm.trans ?_ (List.filter_append_perm (fun x : Int × PTree => decide (x.2.ind < n)) _)
    rw [List.filter_filter, List.filter_filter]
    simp only [List.map_cons, List.map_nil, List.flatten_cons, List.flatten_nil, List.append_nil]
    refine List.Perm.append (List.Perm.of_eq ?_) (List.Perm.of_eq ?_)
    · refine List.filter_congr (fun x _ => ?_)
      rw [Bool.eq_iff_iff]; simp; omega
    · refine List.filter_congr (fun x _ => ?_)
      rw [Bool.eq_iff_iff]; simp; omega

theorem filter_flatten (l : List (Int × PTree)) (n : Nat) (h : ∀ x ∈ l, x.2.ind < n) :
    (((List.range n).map (fun (i : Nat) => l.filter (fun x => x.2.ind == i))).flatten).Perm l := by
  have := filter_flatten' l n
  rwa [List.filter_eq_self.2 (fun x hx => by simpa using h x hx)] at this

theorem flatten_filter_ne {α : Type} (L : List (List α)) : (L.filter (fun g => !g.isEmpty)).flatten = L.flatten := by
  induction L with
  | nil => rfl
  | cons g L ih => cases g <;> simp [ih]

theorem getNodes_perm (t : PTree) : t.getNodes.flatten.Perm (t.flat (-1)) := by
  rw [getNodes, flatten_filter_ne]
  exact filter_flatten _ _ (fun x hx => last_max (flat_sorted t (-1)) hx)

theorem getNodes_group (t : PTree) (g) (hg : g ∈ t.getNodes) : g ≠ [] ∧ ∃ i : Nat, g = (t.flat (-1)).filter (fun x => x.2.ind == i) := by
  rw [getNodes] at hg
  simp only [List.mem_filter, List.mem_map] at hg
  obtain ⟨⟨i, _, rfl⟩, h⟩ := hg
  exact ⟨by simpa using h, i, rfl⟩

theorem getNodes_pairwise (t : PTree) : t.getNodes.Pairwise (fun g h => ∀ x ∈ g, ∀ y ∈ h, x.2.ind < y.2.ind) := by
  rw [getNodes]
  refine List.Pairwise.filter _ ?_
  rw [List.pairwise_map]
  refine List.Pairwise.imp ?_ (List.pairwise_lt_range)
  intro a b hab x hx y hy
  simp only [List.mem_filter, beq_iff_eq] at hx hy
  omega

theorem withParents_map (t : PTree) (par : Int) : (t.withParents par).map Prod.snd = t.subs := by
  induction t using ind' generalizing par with
  | H w i t cs ih =>
    rw [withParents_node, subs_node, List.map_cons, List.map_flatMap]
    congr 1
    exact List.flatMap_congr (fun c hc => ih c hc i)

theorem flat_inds (t : PTree) (par : Int) : ((t.flat par).map (fun x => x.2.ind)).Perm t.inds := by
  have := (flat_perm t par).map (fun x => x.2.ind)
  refine this.trans (List.Perm.of_eq ?_)
  rw [inds, ← withParents_map t par, List.map_map]; rfl

theorem flat_strict (t : PTree) (par : Int) (h : t.inds.Nodup) : (t.flat par).Pairwise (fun a b => a.2.ind < b.2.ind) := by
  have h1 := flat_sorted t par
  have h2 : ((t.flat par).map (fun x => x.2.ind)).Nodup := (flat_inds t par).nodup_iff.2 h
  rw [List.Nodup, List.pairwise_map] at h2
  exact (h1.and h2).imp (fun h => lt_of_le_of_ne h.1 h.2)

theorem all_singletons {α : Type} (L : List (List α)) (h : ∀ g ∈ L, g.length = 1) : L = L.flatten.map (fun x => [x]) := by
  induction L with
  | nil => rfl
  | cons g L ih =>
    have hg := h g (by simp)
    obtain ⟨a, rfl⟩ := List.length_eq_one_iff.1 hg
    simpa using ih (fun g hg => h g (List.mem_cons_of_mem _ hg))

theorem getNodes_nodup (t : PTree) (h : t.inds.Nodup) : t.getNodes = (t.flat (-1)).map (fun x => [x]) := by
  have hs := flat_strict t (-1) h
  have h1 : ∀ g ∈ t.getNodes, g.length = 1 := by
    intro g hg
    obtain ⟨h0, i, hi⟩ := getNodes_group t g hg
    have hp : g.Pairwise (fun a b => a.2.ind < b.2.ind) := hi ▸ hs.filter _
    have he : ∀ x ∈ g, x.2.ind = i := by
      intro x hx; rw [hi] at hx; simpa using (List.mem_filter.1 hx).2
    match g, h0, hp, he with
    | [a], _, _, _ => rfl
    | a :: b :: g, _, hp, he =>
      have := (List.pairwise_cons.1 hp).1 b (by simp)
      have := he a (by simp); have := he b (by simp)
      omega
  rw [all_singletons _ h1]
  congr 1
  have hp2 : t.getNodes.flatten.Pairwise (fun a b => a.2.ind < b.2.ind) := by
    rw [List.pairwise_flatten]
    refine ⟨?_, getNodes_pairwise t⟩
    intro g hg
    obtain ⟨a, rfl⟩ := List.length_eq_one_iff.1 (h1 g hg)
    simp
  refine List.Perm.eq_of_pairwise (le := fun a b : Int × PTree => a.2.ind < b.2.ind) ?_ hp2 hs (getNodes_perm t)
  intro a b _ _ h1 h2
  omega

end PTree
end Lambeq
