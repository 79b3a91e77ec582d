import Verif.Grammar.Perm
import Verif.Grammar.Semantics

/-!
# What a diagram of swaps does to basis vectors

Lemmas on the linear map of a permutation of wires, for every interpretation in which swap boxes exchange their two inputs.
-/

namespace Lambeq
open Diagram
set_option linter.unusedSectionVars false
variable {O B R : Type} [SwapSig B O] [DecidableEq O] [CommSemiring R] (I : Interp O B R)

namespace Interp

/-- Swap boxes exchange two wires. -/
def Swaps : Prop := ∀ x y i j k l, i < I.dim x → j < I.dim y → k < I.dim y → l < I.dim x →
  I.ten (SwapSig.swapBox x y) [i, j] [k, l] = if k = j ∧ l = i then 1 else 0

/-- The effect of one swap layer. -/
theorem act_swap (h : I.Swaps) (L T : List O) (x y : O) (v : List Nat → R) {yl yr : List Nat} {p q : Nat} (hl : yl ∈ I.idx L)
    (hp : p < I.dim y) (hq : q < I.dim x) : I.act ⟨L, SwapSig.swapBox x y, T⟩ v (yl ++ p :: q :: yr) = v (yl ++ q :: p :: yr) := by
  have hs := I.act_split ⟨L, SwapSig.swapBox x y, T⟩ v (yl := yl) (c := [p, q]) yr (I.length_of_mem hl)
    (by simp [SwapSig.swap_cod])
  simp only [List.cons_append, List.nil_append] at hs
  rw [hs, SwapSig.swap_dom, I.sum_idx_cons]
  have h0 : ∀ i : Nat, (∑ t ∈ I.idx [y], v (yl ++ (i :: t ++ yr)) * I.ten (SwapSig.swapBox x y) (i :: t) [p, q]) =
      ∑ j ∈ Finset.range (I.dim y), v (yl ++ i :: j :: yr) * I.ten (SwapSig.swapBox x y) [i, j] [p, q] := by
    intro i
    rw [I.sum_idx_cons]
    refine Finset.sum_congr rfl (fun j _ => ?_)
    simp [idx]
  simp only [h0]
  rw [Finset.sum_eq_single q, Finset.sum_eq_single p]
  · rw [h x y q p p q hq hp hp hq]; simp
  · intro b hb hne
    rw [h x y q b p q hq (Finset.mem_range.1 hb) hp hq, if_neg (by rintro ⟨e, _⟩; exact hne e.symm), mul_zero]
  · intro hb; exact absurd (Finset.mem_range.2 hp) hb
  · intro b hb hne
    refine Finset.sum_eq_zero (fun c hc => ?_)
    rw [h x y b c p q (Finset.mem_range.1 hb) (Finset.mem_range.1 hc) hp hq, if_neg (by rintro ⟨_, e⟩; exact hne e.symm), mul_zero]
  · intro hb; exact absurd (Finset.mem_range.2 hq) hb

theorem mem_two {L T : List O} {x y : O} {z : List Nat} (hz : z ∈ I.idx (L ++ x :: y :: T)) :
    ∃ zl i j zr, z = zl ++ i :: j :: zr ∧ zl ∈ I.idx L ∧ i < I.dim x ∧ j < I.dim y ∧ zr ∈ I.idx T := by
  obtain ⟨zl, z2, rfl, h1, h2⟩ := I.mem_append hz
  rw [mem_idx] at h2
  obtain _ | ⟨hi, h2⟩ := h2
  obtain _ | ⟨hj, h2⟩ := h2
  exact ⟨zl, _, _, _, rfl, h1, hi, hj, (I.mem_idx _ _).2 h2⟩

theorem two_mem {L T : List O} {x y : O} {zl zr : List Nat} {i j : Nat} (h1 : zl ∈ I.idx L) (hi : i < I.dim x) (hj : j < I.dim y)
    (h2 : zr ∈ I.idx T) : zl ++ i :: j :: zr ∈ I.idx (L ++ x :: y :: T) :=
  I.append_mem h1 ((I.mem_idx _ _).2 (.cons hi (.cons hj ((I.mem_idx _ _).1 h2))))

theorem route_mem {a c : List O} {ls : List (Layer O B)} (hc : Chain a ls c) (hs : OnlySwaps ls) {x : List Nat} (hx : x ∈ I.idx a) :
    routeWires ls x ∈ I.idx c := by
  induction ls generalizing a x with
  | nil => obtain rfl : a = c := hc; exact hx
  | cons l ls ih =>
    obtain ⟨h1, h2⟩ := hc
    obtain ⟨p, q, hb⟩ := hs l (by simp)
    subst h1
    rw [routeWires]
    refine ih h2 (fun m hm => hs m (List.mem_cons_of_mem _ hm)) ?_
    have e1 : l.dom = l.left ++ p :: q :: l.right := by simp [Layer.dom, hb, SwapSig.swap_dom]
    have e2 : l.cod = l.left ++ q :: p :: l.right := by simp [Layer.cod, hb, SwapSig.swap_cod]
    rw [e1] at hx
    obtain ⟨zl, i, j, zr, rfl, m1, hi, hj, m2⟩ := I.mem_two hx
    rw [← I.length_of_mem m1, swapAdj_append, e2]
    exact I.two_mem m1 hj hi m2

theorem route_surj {a c : List O} {ls : List (Layer O B)} (hc : Chain a ls c) (hs : OnlySwaps ls) {y : List Nat} (hy : y ∈ I.idx c) :
    ∃ x ∈ I.idx a, routeWires ls x = y := by
  induction ls generalizing a with
  | nil => obtain rfl : a = c := hc; exact ⟨y, hy, rfl⟩
  | cons l ls ih =>
    obtain ⟨h1, h2⟩ := hc
    obtain ⟨p, q, hb⟩ := hs l (by simp)
    subst h1
    obtain ⟨w, hw, rfl⟩ := ih h2 (fun m hm => hs m (List.mem_cons_of_mem _ hm))
    have e1 : l.dom = l.left ++ p :: q :: l.right := by simp [Layer.dom, hb, SwapSig.swap_dom]
    have e2 : l.cod = l.left ++ q :: p :: l.right := by simp [Layer.cod, hb, SwapSig.swap_cod]
    rw [e2] at hw
    obtain ⟨zl, i, j, zr, rfl, m1, hi, hj, m2⟩ := I.mem_two hw
    refine ⟨zl ++ j :: i :: zr, by rw [e1]; exact I.two_mem m1 hj hi m2, ?_⟩
    rw [routeWires, ← I.length_of_mem m1, swapAdj_append]

theorem swapAdj_inj {α : Type} (i : Nat) {x y : List α} (h : swapAdj i x = swapAdj i y) : x = y := by
  have key : ∀ z : List α, swapAdj i (swapAdj i z) = z := by
    intro z
    unfold swapAdj
    rcases hd : z.drop i with _ | ⟨a, _ | ⟨b, t⟩⟩
    · simp only [List.append_nil]; rw [show List.drop i (z.take i) = [] by simp]
      simp only [List.append_nil, List.take_take, Nat.min_self]
      conv_rhs => rw [← List.take_append_drop i z, hd]
      simp
    · have e : z.take i ++ [a] = z := by conv_rhs => rw [← List.take_append_drop i z, hd]
      simp only [e, hd]
    · have hl : i ≤ z.length := by
        by_contra hlt
        rw [List.drop_eq_nil_of_le (by omega)] at hd; cases hd
      have e1 : (z.take i).length = i := by simp [hl]
      have e2 : (z.take i ++ b :: a :: t).take i = z.take i := List.take_left' e1
      have e3 : (z.take i ++ b :: a :: t).drop i = b :: a :: t := List.drop_left' e1
      simp only [e2, e3]
      conv_rhs => rw [← List.take_append_drop i z, hd]
  rw [← key x, h, key y]

theorem route_inj {α : Type} (ls : List (Layer O B)) {x y : List α} (h : routeWires ls x = routeWires ls y) : x = y := by
  induction ls generalizing x y with
  | nil => exact h
  | cons l ls ih => exact swapAdj_inj _ (ih h)

/-- A diagram of swaps moves the entry at `x` to the routed position. -/
theorem run_swaps (h : I.Swaps) {a c : List O} {ls : List (Layer O B)} (hc : Chain a ls c) (hs : OnlySwaps ls) (v : List Nat → R)
    {x : List Nat} (hx : x ∈ I.idx a) : I.run ls v (routeWires ls x) = v x := by
  induction ls generalizing a v x with
  | nil => rfl
  | cons l ls ih =>
    obtain ⟨h1, h2⟩ := hc
    obtain ⟨p, q, hb⟩ := hs l (by simp)
    subst h1
    have hmem := I.route_mem (ls := [l]) (show Chain l.dom [l] l.cod from ⟨rfl, rfl⟩) (fun m hm => hs m (by simp_all)) hx
    change swapAdj l.left.length x ∈ _ at hmem
    rw [run, routeWires, ih h2 (fun m hm => hs m (List.mem_cons_of_mem _ hm)) _ hmem]
    have e1 : l.dom = l.left ++ p :: q :: l.right := by simp [Layer.dom, hb, SwapSig.swap_dom]
    rw [e1] at hx
    obtain ⟨zl, i, j, zr, rfl, m1, hi, hj, m2⟩ := I.mem_two hx
    have e : l = ⟨l.left, SwapSig.swapBox p q, l.right⟩ := by rw [← hb]
    rw [← I.length_of_mem m1, swapAdj_append, e]
    exact I.act_swap h _ _ _ _ _ m1 hj hi

/-- The reversed diagram of swaps moves the entries back. -/
theorem run_swaps_dagger (h : I.Swaps) (bdag : B → B) (hb : ∀ x y, bdag (SwapSig.swapBox x y) = SwapSig.swapBox y x) {a c : List O}
    {ls : List (Layer O B)} (hc : Chain a ls c) (hs : OnlySwaps ls) (v : List Nat → R) {x : List Nat} (hx : x ∈ I.idx a) :
    I.run (ls.reverse.map (fun l => { l with box := bdag l.box })) v x = v (routeWires ls x) := by
  induction ls generalizing a v x with
  | nil => rfl
  | cons l ls ih =>
    obtain ⟨h1, h2⟩ := hc
    obtain ⟨p, q, hbb⟩ := hs l (by simp)
    subst h1
    have hmem := I.route_mem (ls := [l]) (show Chain l.dom [l] l.cod from ⟨rfl, rfl⟩) (fun m hm => hs m (by simp_all)) hx
    change swapAdj l.left.length x ∈ _ at hmem
    rw [List.reverse_cons, List.map_append, run_append, List.map_cons, List.map_nil, routeWires,
      ← ih h2 (fun m hm => hs m (List.mem_cons_of_mem _ hm)) v hmem]
    have e1 : l.dom = l.left ++ p :: q :: l.right := by simp [Layer.dom, hbb, SwapSig.swap_dom]
    rw [e1] at hx
    obtain ⟨zl, i, j, zr, rfl, m1, hi, hj, m2⟩ := I.mem_two hx
    rw [run, run, hbb, hb, I.act_swap h _ _ _ _ _ m1 hi hj]
    rw [← I.length_of_mem m1, swapAdj_append]

/-- The matrix of a diagram of swaps. -/
theorem mat_swaps (h : I.Swaps) {d : Diagram O B} (hd : d.WT) (hs : OnlySwaps d.layers) {x y : List Nat} (hx : x ∈ I.idx d.dom)
    (hy : y ∈ I.idx d.cod) : I.mat d x y = if y = routeWires d.layers x then 1 else 0 := by
  obtain ⟨w, hw, rfl⟩ := I.route_surj hd hs hy
  rw [mat, I.run_swaps h hd hs _ hw]
  by_cases e : w = x
  · subst e; simp
  · rw [if_neg e, if_neg (fun e' => e (route_inj _ e'))]

end Interp
end Lambeq
