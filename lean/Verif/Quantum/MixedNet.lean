import Verif.Quantum.Mixed

/-!
# Networks with several groups of open legs

Contraction with the open legs given as pairs of a leg and its index, for the three groups of legs of mixed evaluation.
-/

namespace Lambeq
open Diagram
set_option linter.unusedSectionVars false
set_option linter.unusedSimpArgs false
variable {R : Type} [CommSemiring R] [Inhabited R]

/-- The contraction with inputs `x` and the legs of `p` at their indices. -/
def Net.P (n : Net R) (inp : List Leg) (x : List Nat) (p : List (Leg × Nat)) : R := n.W inp (p.map Prod.fst) x (p.map Prod.snd)

theorem map_fst_eq_snd (σ : List (List Nat)) (p : List (Leg × Nat)) :
    (p.map Prod.fst).map (legVal σ) = p.map Prod.snd ↔ ∀ e ∈ p, legVal σ e.1 = e.2 := by
  induction p with
  | nil => simp
  | cons a p ih => simp only [List.map_cons, List.cons.injEq, ih, List.forall_mem_cons]

theorem Net.P_eq (n : Net R) (inp : List Leg) (x : List Nat) (p : List (Leg × Nat)) (hx : inp.length = x.length) :
    n.P inp x p = ∑ σ ∈ assignments n.nodes,
      if (∀ c ∈ n.conns, legVal σ c.1 = legVal σ c.2) ∧ inp.map (legVal σ) = x ∧ ∀ e ∈ p, legVal σ e.1 = e.2 then nodeProd n.nodes σ else 0 := by
  rw [Net.P, Net.W_eq _ _ _ _ _ hx]
  simp only [map_fst_eq_snd]

/-- The order of the connections and of the open legs does not matter. -/
theorem Net.P_congr {ns : List (NdArray R)} {cs cs' : List (Leg × Leg)} (inp : List Leg) (x : List Nat) {p p' : List (Leg × Nat)} (hx : inp.length = x.length)
    (hc : ∀ c, c ∈ cs ↔ c ∈ cs') (hp : ∀ e, e ∈ p ↔ e ∈ p') : Net.P ⟨ns, cs⟩ inp x p = Net.P ⟨ns, cs'⟩ inp x p' := by
  rw [Net.P_eq _ _ _ _ hx, Net.P_eq _ _ _ _ hx]
  refine Finset.sum_congr rfl (fun σ _ => if_congr ?_ rfl rfl)
  simp only [hc, hp]

theorem map_fst_zip' {α β : Type} (a : List α) (b : List β) (h : a.length = b.length) : (a.zip b).map Prod.fst = a := List.map_fst_zip (by omega)
theorem map_snd_zip' {α β : Type} (a : List α) (b : List β) (h : a.length = b.length) : (a.zip b).map Prod.snd = b := List.map_snd_zip (by omega)

/-- Adding a node. -/
theorem P_addNode (n : Net R) (inp m : List Leg) (r : List (Leg × Nat)) (a : NdArray R) (ds cs : List Nat) (hsh : a.shape = ds ++ cs)
    (hconns : ∀ c ∈ n.conns, c.1.node < n.nodes.length ∧ c.2.node < n.nodes.length) (hinp : ∀ x ∈ inp, x.node < n.nodes.length)
    (hm : ∀ x ∈ m, x.node < n.nodes.length) (hr : ∀ x ∈ r, x.1.node < n.nodes.length) (hl : m.length = ds.length)
    (x o : List Nat) (hx : inp.length = x.length) (ho : InShape cs o) :
    Net.P ⟨n.nodes ++ [a], n.conns ++ m.zip (TnCat.legsOf n.nodes.length 0 ds.length)⟩ inp x
        ((TnCat.legsOf n.nodes.length ds.length a.shape.length).zip o ++ r)
      = ∑ i ∈ shapeIdx ds, n.P inp x (m.zip i ++ r) * a.get (i ++ o) := by
  have h := W_addNode n inp [] m (r.map Prod.fst) a ds cs hsh hconns hinp (by
    intro y hy
    rw [List.nil_append, List.mem_append] at hy
    rcases hy with hy | hy
    · exact hm y hy
    · obtain ⟨e, he, rfl⟩ := List.mem_map.1 hy; exact hr e he) hl x [] o (r.map Prod.snd) hx rfl ho
  have hlo : (TnCat.legsOf n.nodes.length ds.length a.shape.length).length = o.length := by
    rw [TnCat.legsOf, List.length_map, List.length_range, hsh, List.length_append, ← ho.length_eq]; omega
  rw [Net.P, List.map_append, List.map_append, map_fst_zip' _ _ hlo, map_snd_zip' _ _ hlo]
  simp only [List.nil_append] at h
  rw [h]
  refine Finset.sum_congr rfl (fun i hi => ?_)
  have hli : m.length = i.length := by rw [hl, (mem_shapeIdx.1 hi).length_eq]
  rw [Net.P, List.map_append, List.map_append, map_fst_zip' _ _ hli, map_snd_zip' _ _ hli]

/-- Connecting two legs of dimension two. -/
theorem P_cup (n : Net R) (inp : List Leg) (r : List (Leg × Nat)) (a b : Leg) (ha : LegOK n a) (hda : n.legDim a = 2) (hb : LegOK n b) (hdb : n.legDim b = 2)
    (x : List Nat) (hx : inp.length = x.length) :
    Net.P ⟨n.nodes, n.conns ++ [(a, b)]⟩ inp x r = n.P inp x ((a, 0) :: (b, 0) :: r) + n.P inp x ((a, 1) :: (b, 1) :: r) := by
  have h := W_cup n inp [] (r.map Prod.fst) a b 2 ha hda hb hdb x [] (r.map Prod.snd) hx rfl
  simp only [List.nil_append] at h
  rw [Net.P, h]
  have : shapeIdx [2, 2] = {[0, 0], [0, 1], [1, 0], [1, 1]} := by decide
  rw [this]
  simp [Net.P]

/-- Indices of legs are in range, so a leg at an index out of range contributes nothing; in particular the value only depends on legs in range. -/
theorem zip_append' {α β : Type} {a a' : List α} {b b' : List β} (h : a.length = b.length) : (a ++ a').zip (b ++ b') = a.zip b ++ a'.zip b' :=
  List.zip_append h

end Lambeq
