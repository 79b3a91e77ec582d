import Verif.Grammar.SwapProps

/-!
# Compound spiders: C14
-/

namespace Lambeq
set_option linter.unusedSimpArgs false
open Diagram

/-- Specification: `a` blocks of `b` entries, entry `j` of block `i` being `f i j`. -/
def grid {α : Type} (a b : Nat) (f : Nat → Nat → α) : List α :=
  ((List.range a).map (fun i => (List.range b).map (f i))).flatten

theorem grid_succ {α : Type} (a b : Nat) (f : Nat → Nat → α) :
    grid (a + 1) b f = grid a b f ++ (List.range b).map (f a) := by
  simp [grid, List.range_succ]

theorem grid_length {α : Type} (a b : Nat) (f : Nat → Nat → α) : (grid a b f).length = a * b := by
  induction a with
  | zero => simp [grid]
  | succ a ih => rw [grid_succ]; simp [ih, Nat.succ_mul]

theorem grid_map {α β : Type} (g : α → β) (a b : Nat) (f : Nat → Nat → α) :
    (grid a b f).map g = grid a b (fun i j => g (f i j)) := by
  induction a with
  | zero => simp [grid]
  | succ a ih => rw [grid_succ, grid_succ]; simp [ih]

theorem grid_congr {α : Type} (a b : Nat) (f g : Nat → Nat → α)
    (h : ∀ i j, i < a → j < b → f i j = g i j) : grid a b f = grid a b g := by
  unfold grid
  congr 1
  apply List.map_congr_left
  intro i hi
  apply List.map_congr_left
  intro j hj
  exact h i j (by simpa using hi) (by simpa using hj)

theorem grid_get {α : Type} (a b : Nat) (f : Nat → Nat → α) (i j : Nat) (hi : i < a) (hj : j < b) :
    (grid a b f)[i * b + j]? = some (f i j) := by
  induction a with
  | zero => omega
  | succ a ih =>
    rw [grid_succ]
    by_cases h : i < a
    · have hlt : i * b + j < (grid a b f).length := by
        rw [grid_length]
        calc i * b + j < i * b + b := by omega
          _ = (i + 1) * b := by rw [Nat.succ_mul]
          _ ≤ a * b := Nat.mul_le_mul_right _ h
      rw [List.getElem?_append_left hlt]; exact ih h
    · have : i = a := by omega
      subst this
      rw [List.getElem?_append_right (by rw [grid_length]; omega), grid_length]
      simp [hj]

theorem mem_grid {α : Type} (a b : Nat) (f : Nat → Nat → α) (x : α) :
    x ∈ grid a b f ↔ ∃ i j, i < a ∧ j < b ∧ f i j = x := by
  simp only [grid, List.mem_flatten, List.mem_map, List.mem_range]
  constructor
  · rintro ⟨_, ⟨i, hi, rfl⟩, hx⟩
    obtain ⟨j, hj, rfl⟩ := List.mem_map.1 hx
    exact ⟨i, j, hi, by simpa using hj, rfl⟩
  · rintro ⟨i, j, hi, hj, rfl⟩
    exact ⟨_, ⟨i, hi, rfl⟩, List.mem_map.2 ⟨j, by simpa using hj, rfl⟩⟩

namespace GDiagram

theorem strideList_eq (a b : Nat) : strideList a (a * b) = grid a b (fun i k => i + k * a) := by
  unfold strideList grid
  congr 1
  apply List.map_congr_left
  intro i hi
  have hi : i < a := by simpa using hi
  unfold rangeStep
  have : (a * b - i + a - 1) / a = b := by
    rcases b with _ | b
    · simp; omega
    · have e : a * (b + 1) - i + a - 1 = (a - 1 - i) + a * (b + 1) := by
        have : i ≤ a * (b + 1) := by
          have : a ≤ a * (b + 1) := Nat.le_mul_of_pos_right a (Nat.succ_pos b)
          omega
        omega
      rw [e, Nat.add_mul_div_left _ _ (by omega), Nat.div_eq_of_lt (by omega)]; omega
  rw [this]

theorem strideList_valid (a b n : Nat) (hn : n = a * b) :
    validPerm n ((strideList a (a * b)).map Int.ofNat) = true := by
  subst hn
  rw [validPerm_iff, strideList_eq]
  refine ⟨by simp [grid_length], ?_, ?_⟩
  · intro x hx
    obtain ⟨y, hy, rfl⟩ := List.mem_map.1 hx
    obtain ⟨i, k, hi, hk, rfl⟩ := (mem_grid _ _ _ _).1 hy
    refine ⟨Int.natCast_nonneg _, ?_⟩
    have : i + k * a < a * b := by
      calc i + k * a < a + k * a := by omega
        _ = (k + 1) * a := by rw [Nat.succ_mul]; omega
        _ ≤ b * a := Nat.mul_le_mul_right _ hk
        _ = a * b := Nat.mul_comm _ _
    exact Int.ofNat_lt.2 this
  · intro j hj
    rcases Nat.eq_zero_or_pos a with rfl | ha
    · simp at hj
    refine List.mem_map.2 ⟨j, (mem_grid _ _ _ _).2 ⟨j % a, j / a, Nat.mod_lt _ ha, ?_, ?_⟩, rfl⟩
    · exact Nat.div_lt_of_lt_mul hj
    · rw [Nat.mul_comm]; exact Nat.mod_add_div _ _

/-- A stride permutation transposes the grid of wire labels. -/
theorem stride_permutation {a b : Nat} (dom : Ty) (hd : dom.length = a * b) :
    ∃ d : GDiagram, permutation dom ((strideList a (a * b)).map Int.ofNat) = .ok d ∧ d.dom = dom ∧ d.WT
      ∧ OnlySwaps d.layers
      ∧ (∀ {α : Type} (f : Nat → Nat → α),
          routeWires d.layers (grid b a f) = grid a b (fun i k => f k i)) := by
  obtain ⟨d, e1, e2, e3, e4, e5⟩ := permutation_spec (B := Box) dom _ (strideList_valid a b dom.length hd)
  refine ⟨d, e1, e2, e3, e4, ?_⟩
  intro α f
  have := routeWires_of_range d.layers (grid b a f) _ (by
    rw [grid_length, Nat.mul_comm, ← hd, e5])
  have h2 : (List.map Int.toNat (List.map Int.ofNat (strideList a (a * b)))) = strideList a (a * b) := by
    simp [Function.comp_def]
  rw [h2, strideList_eq, grid_map] at this
  have h3 : grid a b (fun i k => (grid b a f)[i + k * a]?) = grid a b (fun i k => some (f k i)) := by
    apply grid_congr
    intro i k hi hk
    rw [Nat.add_comm]; exact grid_get b a f k i hk hi
  rw [h3, ← grid_map some] at this
  exact (List.map_inj_right (fun _ _ h => Option.some.inj h)).1 this

/-- `t` as a function of the position. -/
def atomAt (t : Ty) (i : Nat) : Ob := (t[i]?).getD ⟨"", 0⟩

theorem range_atomAt (t : Ty) : (List.range t.length).map (atomAt t) = t := by
  apply List.ext_getElem?
  intro i
  by_cases h : i < t.length
  · simp [List.getElem?_map, List.getElem?_range h, atomAt, h]
  · simp [List.getElem?_eq_none_iff.2 (Nat.le_of_not_lt h), h]

theorem rep_eq_grid (t : Ty) (n : Nat) : Ty.rep t n = grid n t.length (fun _ i => atomAt t i) := by
  induction n with
  | zero => simp [Ty.rep, grid]
  | succ n ih =>
    rw [grid_succ, ← ih]
    have : (List.range t.length).map (fun i => atomAt t i) = t := range_atomAt t
    rw [this]
    simp [Ty.rep, List.replicate_succ']

theorem flatten_replicate_eq_grid (t : Ty) (n : Nat) :
    (t.map (List.replicate n)).flatten = grid t.length n (fun i _ => atomAt t i) := by
  have : t.map (List.replicate n) = ((List.range t.length).map (atomAt t)).map (List.replicate n) := by
    rw [range_atomAt]
  rw [this, List.map_map]
  unfold grid
  congr 1
  apply List.map_congr_left
  intro i _
  simp [Function.comp_def, List.map_const']

/-- A row of boxes side by side. -/
theorem tensor_row (bs : List Box) :
    let d : GDiagram := tensorN (bs.map ofBox)
    d.WT ∧ d.dom = (bs.map Box.dom).flatten ∧ d.cod = (bs.map Box.cod).flatten ∧ d.layers.length = bs.length
      ∧ ∀ i (h : i < bs.length), d.layers[i]? = some ⟨((bs.take i).map Box.cod).flatten, bs[i],
          ((bs.drop (i + 1)).map Box.dom).flatten⟩ := by
  simp only
  rw [tensorN_eq_foldr]
  induction bs with
  | nil => exact ⟨rfl, rfl, rfl, rfl, by simp⟩
  | cons b bs ih =>
    obtain ⟨h1, h2, h3, h4, h5⟩ := ih
    simp only [List.map_cons, List.foldr_cons]
    refine ⟨WT.tensor (WT.ofBox b) h1, ?_, ?_, ?_, ?_⟩
    · rw [tensor_dom, h2]; simp [ofBox]
    · rw [tensor_cod, h3]; simp [ofBox]
    · rw [tensor_layers]; simp [ofBox, h4]
    · intro i hi
      rw [tensor_layers]
      rcases i with _ | i
      · simp [ofBox, Layer.extend, h2]
      · have := h5 i (by simpa using hi)
        simp [ofBox, List.getElem?_cons, List.getElem?_map, this, Layer.extend]

/-- **C14.** `Spider(t, m, n)` never raises, for any type `t` and leg counts, and is a well-typed diagram
from `t ** m` to `t ** n` of the form `P >> S >> Q` (on layers) where
* `S` is one atomic spider per atom of `t`, in order, side by side: spider `i` takes the next `m` wires
  and returns `n` wires;
* `P` only swaps adjacent wires and brings wire `i` of copy `k` of the input to leg `k` of spider `i`
  (any labels `f k i` on input wire `i` of copy `k` are regrouped by `i`);
* `Q` only swaps adjacent wires and brings leg `k` of spider `i` to wire `i` of copy `k` of the output.
For an atomic type the diagram is the atomic spider itself. -/
theorem C14_spider (t : Ty) (m n : Nat) :
    ∃ d P S Q, mkSpider t m n = .ok d ∧ d.WT ∧ d.dom = Ty.rep t m ∧ d.cod = Ty.rep t n
      ∧ d.layers = P ++ S ++ Q ∧ OnlySwaps P ∧ OnlySwaps Q
      ∧ S.length = t.length
      ∧ (∀ i (h : i < t.length), S[i]? = some ⟨((t.take i).map (List.replicate n)).flatten,
          .spider t[i] m n, ((t.drop (i + 1)).map (List.replicate m)).flatten⟩)
      ∧ (∀ {α : Type} (f : Nat → Nat → α),
          routeWires P (grid m t.length f) = grid t.length m (fun i k => f k i))
      ∧ (∀ {α : Type} (g : Nat → Nat → α),
          routeWires Q (grid t.length n g) = grid n t.length (fun k i => g i k)) := by
  by_cases ht : t.length = 1
  · obtain ⟨o, rfl⟩ := List.length_eq_one_iff.1 ht
    refine ⟨_, [], [⟨[], .spider o m n, []⟩], [], rfl, WT.ofBox _, ?_, ?_, rfl, ?_, ?_, rfl, ?_, ?_, ?_⟩
    · simp [ofBox, Box.dom, Ty.rep]
    · simp [ofBox, Box.cod, Ty.rep]
    · simp [OnlySwaps]
    · simp [OnlySwaps]
    · intro i hi
      have : i = 0 := by simpa using hi
      subst this; simp
    · intro α f
      simp [routeWires, grid]
      induction m with
      | zero => rfl
      | succ m ih => simp [List.range_succ, ih]
    · intro α f
      simp [routeWires, grid]
      induction n with
      | zero => rfl
      | succ m ih => simp [List.range_succ, ih]
  · have hdom : (Ty.rep t m).length = t.length * m := by
      rw [rep_eq_grid, grid_length, Nat.mul_comm]
    obtain ⟨p, p1, p2, p3, p4, p5⟩ := stride_permutation (a := t.length) (b := m) (Ty.rep t m) hdom
    have hpc : p.cod = (t.map (List.replicate m)).flatten := by
      have := chain_onlySwaps (a := p.dom) p3 p4
      rw [← this, p2, rep_eq_grid, p5, flatten_replicate_eq_grid]
    obtain ⟨r1, r2, r3, r4, r5⟩ := tensor_row (t.map (fun o => Box.spider o m n))
    have hrow : tensorN (Diagram.id [] :: t.map (fun o => ofBox (.spider o m n)))
        = (tensorN ((t.map (fun o => Box.spider o m n)).map ofBox) : GDiagram) := by
      rw [tensorN_eq_foldr, tensorN_eq_foldr, List.foldr_cons, tensor_id_nil_left]
      simp [Function.comp_def]
    generalize (tensorN ((t.map (fun o => Box.spider o m n)).map ofBox) : GDiagram) = s at *
    have hsd : s.dom = (t.map (List.replicate m)).flatten := by
      rw [r2]; simp [Function.comp_def, Box.dom]
    have hsc : s.cod = (t.map (List.replicate n)).flatten := by
      rw [r3]; simp [Function.comp_def, Box.cod]
    obtain ⟨q, q1, q2, q3, q4, q5⟩ := stride_permutation (a := n) (b := t.length) s.cod
      (by rw [hsc, flatten_replicate_eq_grid, grid_length, Nat.mul_comm])
    have hqc : q.cod = Ty.rep t n := by
      have := chain_onlySwaps (a := q.dom) q3 q4
      rw [← this, q2, hsc, flatten_replicate_eq_grid, q5, rep_eq_grid]
    refine ⟨⟨p.dom, q.cod, p.layers ++ (s.layers ++ q.layers)⟩, p.layers, s.layers, q.layers, ?_, ?_, p2, hqc,
      by simp, p4, q4, by simpa using r4, ?_, p5, q5⟩
    · unfold mkSpider
      split
      · simp at ht
      · simp only
        rw [p1, hrow]
        simp only [permuted]
        rw [Nat.mul_comm t.length n, q1]
        simp only
        rw [andThen_eq_ok (by rw [q2])]
        simp only
        rw [andThen_eq_ok (by simp only; rw [hpc, hsd])]
    · refine Chain.append (b := p.cod) p3 (Chain.append (b := s.cod) ?_ ?_)
      · rw [hpc, ← hsd]; exact r1
      · have := q3; unfold WT at this; rwa [q2] at this
    · intro i hi
      have := r5 i (by simpa using hi)
      rw [this]
      simp [← List.map_take, ← List.map_drop, Function.comp_def, Box.cod, Box.dom]

/-- Non-vacuity of C14: a compound spider with two inputs and three outputs on a two-atom type. -/
example : ∃ d, mkSpider [⟨"a",0⟩,⟨"b",1⟩] 2 3 = .ok d ∧ d.layers.length = 6 ∧
    d.cod = [⟨"a",0⟩,⟨"b",1⟩,⟨"a",0⟩,⟨"b",1⟩,⟨"a",0⟩,⟨"b",1⟩] := ⟨_, rfl, rfl, rfl⟩

end GDiagram
end Lambeq
