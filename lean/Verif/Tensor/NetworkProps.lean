import Verif.Tensor.Network
import Mathlib.Algebra.BigOperators.Ring.Finset

/-!
# Evaluating a tensor diagram (C67)

The network built by `to_tn` contracts to the matrix of the diagram.
-/

namespace Lambeq
open Diagram
set_option linter.unusedSectionVars false
set_option linter.unusedSimpArgs false

variable {O B R : Type} [BoxSig B O] [DecidableEq O] [CommSemiring R] [Inhabited R]

theorem mem_shapeIdx {s i : List Nat} : i ∈ shapeIdx s ↔ InShape s i := by
  induction s generalizing i with
  | nil => simp [shapeIdx, InShape]
  | cons n s ih =>
    simp only [shapeIdx, Finset.mem_image, Finset.mem_product, Finset.mem_range, Prod.exists]
    constructor
    · rintro ⟨a, b, ⟨h1, h2⟩, rfl⟩; exact .cons h1 (ih.1 h2)
    · intro h; cases h with | cons h1 h2 => exact ⟨_, _, ⟨h1, ih.2 h2⟩, rfl⟩

theorem idx_eq_shapeIdx (I : Interp O B R) (t : List O) : I.idx t = shapeIdx (t.map I.dim) := by
  induction t with
  | nil => rfl
  | cons o t ih => simp only [Interp.idx, List.map_cons, shapeIdx, ih]

theorem sum_assignments_cons (a : NdArray R) (ns : List (NdArray R)) (f : List (List Nat) → R) :
    ∑ σ ∈ assignments (a :: ns), f σ = ∑ τ ∈ shapeIdx a.shape, ∑ σ ∈ assignments ns, f (τ :: σ) := by
  rw [assignments, Finset.sum_image, Finset.sum_product]
  rintro ⟨a, b⟩ _ ⟨c, d⟩ _ h
  simpa using h

theorem sum_assignments_snoc (ns : List (NdArray R)) (a : NdArray R) (f : List (List Nat) → R) :
    ∑ σ ∈ assignments (ns ++ [a]), f σ = ∑ σ ∈ assignments ns, ∑ τ ∈ shapeIdx a.shape, f (σ ++ [τ]) := by
  induction ns generalizing f with
  | nil => rw [List.nil_append, sum_assignments_cons]; simp [assignments]
  | cons b ns ih =>
    rw [List.cons_append, sum_assignments_cons, sum_assignments_cons]
    exact Finset.sum_congr rfl (fun τ _ => ih (fun σ => f (τ :: σ)))

theorem mem_assignments {ns : List (NdArray R)} {σ : List (List Nat)} (h : σ ∈ assignments ns) :
    List.Forall₂ (fun a τ => InShape a.shape τ) ns σ := by
  induction ns generalizing σ with
  | nil => simp [assignments] at h; subst h; exact .nil
  | cons a ns ih =>
    simp only [assignments, Finset.mem_image, Finset.mem_product, Prod.exists] at h
    obtain ⟨τ, σ, ⟨h1, h2⟩, rfl⟩ := h
    exact .cons (mem_shapeIdx.1 h1) (ih h2)

theorem nodeProd_snoc {ns : List (NdArray R)} {σ : List (List Nat)} (a : NdArray R) (τ : List Nat) (h : ns.length = σ.length) :
    nodeProd (ns ++ [a]) (σ ++ [τ]) = nodeProd ns σ * a.get τ := by
  simp [nodeProd, List.zip_append h]

theorem legVal_old {σ : List (List Nat)} (τ : List Nat) {l : Leg} (h : l.node < σ.length) : legVal (σ ++ [τ]) l = legVal σ l := by
  simp [legVal, List.getD_eq_getElem?_getD, List.getElem?_append_left h]

theorem legVal_new (σ : List (List Nat)) (τ : List Nat) (k : Nat) : legVal (σ ++ [τ]) ⟨σ.length, k⟩ = τ.getD k 0 := by
  simp [legVal, List.getD_eq_getElem?_getD]

/-- The leg exists. -/
def LegOK (n : Net R) (l : Leg) : Prop := ∃ a, n.nodes[l.node]? = some a ∧ l.axis < a.shape.length

theorem legVal_lt {n : Net R} {l : Leg} (h : LegOK n l) {σ : List (List Nat)} (hσ : σ ∈ assignments n.nodes) :
    legVal σ l < n.legDim l := by
  obtain ⟨a, h1, h2⟩ := h
  have hf := mem_assignments hσ
  obtain ⟨hlt, hget⟩ := List.getElem?_eq_some_iff.1 h1
  have hlt' : l.node < σ.length := hf.length_eq ▸ hlt
  have hin : InShape a.shape σ[l.node] := by
    have := List.Forall₂.get hf hlt hlt'
    simpa [hget] using this
  have hax : l.axis < σ[l.node].length := hin.length_eq ▸ h2
  have := List.Forall₂.get hin h2 hax
  simp only [legVal, Net.legDim, h1, Option.map_some, Option.getD_some, List.getD_eq_getElem?_getD,
    List.getElem?_eq_getElem hlt', List.getElem?_eq_getElem h2]
  rw [List.getElem?_eq_getElem hax]
  simpa using this

theorem map_legVal_old {σ : List (List Nat)} (τ : List Nat) {ls : List Leg} (h : ∀ l ∈ ls, l.node < σ.length) :
    ls.map (legVal (σ ++ [τ])) = ls.map (legVal σ) :=
  List.map_congr_left (fun l hl => legVal_old τ (h l hl))

theorem map_legsOf (σ : List (List Nat)) (τ : List Nat) (i j : Nat) (hj : j ≤ τ.length) :
    (TnCat.legsOf σ.length i j).map (legVal (σ ++ [τ])) = (τ.drop i).take (j - i) := by
  refine List.ext_getElem ?_ (fun k h1 h2 => ?_)
  · simp [TnCat.legsOf]; omega
  · simp only [TnCat.legsOf, List.map_map, List.getElem_map, List.getElem_range, Function.comp_apply, legVal_new, List.getElem_take,
      List.getElem_drop]
    have : i + k < τ.length := by simp at h2; omega
    simp [List.getD_eq_getElem?_getD, List.getElem?_eq_getElem this]

/-- Connecting lists of legs: all dimensions agree, and the connections are recorded. -/
theorem connectAll_ok (n : Net R) (ls : List (Leg × Leg)) (h : ∀ p ∈ ls, n.legDim p.1 = n.legDim p.2) :
    TnCat.connectAll n ls = .ok ⟨n.nodes, n.conns ++ ls⟩ := by
  induction ls generalizing n with
  | nil => simp [TnCat.connectAll]
  | cons p ls ih =>
    obtain ⟨a, b⟩ := p
    simp only [TnCat.connectAll, Net.connect, h (a, b) (by simp), if_true]
    have := ih ⟨n.nodes, n.conns ++ [(a, b)]⟩ (fun q hq => h q (List.mem_cons_of_mem _ hq))
    simpa using this

theorem zip_eq_iff {α : Type} (f : Leg → α) (a b : List Leg) (h : a.length = b.length) :
    (∀ c ∈ a.zip b, f c.1 = f c.2) ↔ a.map f = b.map f := by
  induction a generalizing b with
  | nil => cases b <;> simp_all
  | cons x a ih =>
    cases b with
    | nil => simp at h
    | cons y b =>
      have := ih b (by simpa using h)
      simp only [List.zip_cons_cons, List.forall_mem_cons, List.map_cons, List.cons.injEq, this]

/-- The state of the loop after layers leading to the type `t`. -/
structure Inv (C : TnCat O B R) (n : Net R) (inp scan : List Leg) (t : List O) : Prop where
  hconns : ∀ c ∈ n.conns, c.1.node < n.nodes.length ∧ c.2.node < n.nodes.length
  hinp : ∀ l ∈ inp, l.node < n.nodes.length
  hscan : ∀ l ∈ scan, LegOK n l
  dims : scan.map n.legDim = t.map C.dim

theorem LegOK.lt {n : Net R} {l : Leg} (h : LegOK n l) : l.node < n.nodes.length := by
  obtain ⟨a, h1, _⟩ := h
  exact (List.getElem?_eq_some_iff.1 h1).1

/-- The contraction with inputs `x` and the current wires at `s`. -/
def Net.W (n : Net R) (inp scan : List Leg) (x s : List Nat) : R := n.contract (inp ++ scan) (x ++ s)

theorem Net.W_eq (n : Net R) (inp scan : List Leg) (x s : List Nat) (hx : inp.length = x.length) :
    n.W inp scan x s = ∑ σ ∈ assignments n.nodes,
      if (∀ c ∈ n.conns, legVal σ c.1 = legVal σ c.2) ∧ inp.map (legVal σ) = x ∧ scan.map (legVal σ) = s then nodeProd n.nodes σ else 0 := by
  unfold Net.W Net.contract
  refine Finset.sum_congr rfl (fun σ _ => ?_)
  have : (inp ++ scan).map (legVal σ) = x ++ s ↔ inp.map (legVal σ) = x ∧ scan.map (legVal σ) = s := by
    rw [List.map_append]
    constructor
    · intro h; exact List.append_inj h (by simpa using hx)
    · rintro ⟨rfl, rfl⟩; rfl
  simp only [this]

theorem sum_shapeIdx_append (a b : List Nat) (f : List Nat → R) :
    ∑ y ∈ shapeIdx (a ++ b), f y = ∑ u ∈ shapeIdx a, ∑ v ∈ shapeIdx b, f (u ++ v) := by
  induction a generalizing f with
  | nil => simp [shapeIdx]
  | cons o a ih =>
    have hc : ∀ (t : List Nat) (g : List Nat → R), ∑ y ∈ shapeIdx (o :: t), g y = ∑ n ∈ Finset.range o, ∑ y ∈ shapeIdx t, g (n :: y) := by
      intro t g
      rw [shapeIdx, Finset.sum_image, Finset.sum_product]
      rintro ⟨a, b⟩ _ ⟨c, d⟩ _ h
      simpa using h
    rw [List.cons_append, hc, hc]
    exact Finset.sum_congr rfl (fun n _ => ih (fun y => f (n :: y)))

theorem InShape.append {a b u v : List Nat} (hu : InShape a u) (hv : InShape b v) : InShape (a ++ b) (u ++ v) := List.rel_append hu hv

/-- Adding a node contracts its input axes with the wires it was connected to. -/
theorem W_addNode (n : Net R) (inp l m r : List Leg) (a : NdArray R) (ds cs : List Nat) (hsh : a.shape = ds ++ cs)
    (hconns : ∀ c ∈ n.conns, c.1.node < n.nodes.length ∧ c.2.node < n.nodes.length) (hinp : ∀ x ∈ inp, x.node < n.nodes.length)
    (hscan : ∀ x ∈ l ++ m ++ r, x.node < n.nodes.length) (hm : m.length = ds.length)
    (x yl o yr : List Nat) (hx : inp.length = x.length) (hyl : l.length = yl.length) (ho : InShape cs o) :
    Net.W ⟨n.nodes ++ [a], n.conns ++ m.zip (TnCat.legsOf n.nodes.length 0 ds.length)⟩ inp
        (l ++ TnCat.legsOf n.nodes.length ds.length a.shape.length ++ r) x (yl ++ (o ++ yr))
      = ∑ i ∈ shapeIdx ds, n.W inp (l ++ m ++ r) x (yl ++ (i ++ yr)) * a.get (i ++ o) := by
  rw [Net.W_eq _ _ _ _ _ hx]
  simp only [Net.W_eq _ _ _ _ _ hx, sum_assignments_snoc, hsh, sum_shapeIdx_append, Finset.sum_mul]
  rw [Finset.sum_comm]
  refine (Finset.sum_comm).trans ?_
  rw [Finset.sum_comm (s := shapeIdx ds)]
  refine Finset.sum_congr rfl (fun σ hσ => ?_)
  have hlen : n.nodes.length = σ.length := (mem_assignments hσ).length_eq
  refine Finset.sum_congr rfl (fun i hi => ?_)
  have hil : i.length = ds.length := (mem_shapeIdx.1 hi).length_eq.symm
  rw [Finset.sum_eq_single o]
  · have hol : o.length = cs.length := ho.length_eq.symm
    have hL : ∀ τ : List Nat, l.map (legVal (σ ++ [τ])) = l.map (legVal σ) := fun τ => map_legVal_old τ (fun y hy => hlen ▸ hscan y (by simp [hy]))
    have hM : ∀ τ : List Nat, m.map (legVal (σ ++ [τ])) = m.map (legVal σ) := fun τ => map_legVal_old τ (fun y hy => hlen ▸ hscan y (by simp [hy]))
    have hR : ∀ τ : List Nat, r.map (legVal (σ ++ [τ])) = r.map (legVal σ) := fun τ => map_legVal_old τ (fun y hy => hlen ▸ hscan y (by simp [hy]))
    have hI : inp.map (legVal (σ ++ [i ++ o])) = inp.map (legVal σ) := map_legVal_old _ (fun y hy => hlen ▸ hinp y hy)
    have hC : (∀ c ∈ n.conns ++ m.zip (TnCat.legsOf n.nodes.length 0 ds.length), legVal (σ ++ [i ++ o]) c.1 = legVal (σ ++ [i ++ o]) c.2)
        ↔ (∀ c ∈ n.conns, legVal σ c.1 = legVal σ c.2) ∧ m.map (legVal σ) = i := by
      simp only [List.forall_mem_append]
      refine and_congr ?_ ?_
      · refine forall_congr' (fun c => forall_congr' (fun hc => ?_))
        rw [legVal_old _ (hlen ▸ (hconns c hc).1), legVal_old _ (hlen ▸ (hconns c hc).2)]
      · rw [zip_eq_iff _ _ _ (by simp [TnCat.legsOf, hm]), hM, hlen, map_legsOf _ _ _ _ (by simp [hil])]
        simp [← hil]
    have hS : (l ++ TnCat.legsOf n.nodes.length ds.length a.shape.length ++ r).map (legVal (σ ++ [i ++ o])) = yl ++ (o ++ yr)
        ↔ l.map (legVal σ) = yl ∧ r.map (legVal σ) = yr := by
      rw [List.map_append, List.map_append, hL, hR, hlen, map_legsOf _ _ _ _ (by simp [hsh, hil, hol])]
      have e : ((i ++ o).drop ds.length).take (a.shape.length - ds.length) = o := by
        rw [← hil, List.drop_left, hsh, List.length_append, hil, Nat.add_sub_cancel_left, ← hol, List.take_length]
      rw [e, List.append_assoc]
      constructor
      · intro h
        obtain ⟨h1, h2⟩ := List.append_inj h (by simpa using hyl)
        exact ⟨h1, (List.append_inj h2 rfl).2⟩
      · rintro ⟨rfl, rfl⟩; rfl
    have hS' : (l ++ m ++ r).map (legVal σ) = yl ++ (i ++ yr) ↔ l.map (legVal σ) = yl ∧ m.map (legVal σ) = i ∧ r.map (legVal σ) = yr := by
      rw [List.map_append, List.map_append, List.append_assoc]
      constructor
      · intro h
        obtain ⟨h1, h2⟩ := List.append_inj h (by simpa using hyl)
        exact ⟨h1, List.append_inj h2 (by simp [hm, hil])⟩
      · rintro ⟨rfl, rfl, rfl⟩; rfl
    rw [← hsh]
    rw [nodeProd_snoc a _ hlen, ite_mul, zero_mul]
    refine if_congr ?_ rfl rfl
    rw [hC, hS, hS', hI]
    tauto
  · intro o' ho' hne
    rw [if_neg]
    rintro ⟨_, _, h⟩
    apply hne
    have hol : o.length = cs.length := ho.length_eq.symm
    have hol' : o'.length = cs.length := (mem_shapeIdx.1 ho').length_eq.symm
    rw [← hsh, List.map_append, List.map_append, map_legVal_old _ (fun y hy => hlen ▸ hscan y (by simp [hy])), hlen,
      map_legsOf _ _ _ _ (by simp [hsh, hil, hol'])] at h
    have e : ((i ++ o').drop ds.length).take (a.shape.length - ds.length) = o' := by
      rw [← hil, List.drop_left, hsh, List.length_append, hil, Nat.add_sub_cancel_left, ← hol', List.take_length]
    rw [e, List.append_assoc] at h
    obtain ⟨_, h2⟩ := List.append_inj h (by simpa using hyl)
    exact (List.append_inj h2 (by rw [hol, hol'])).1
  · intro h; exact absurd (mem_shapeIdx.2 ho) h

/-- Exchanging two wires. -/
theorem W_swap (n : Net R) (inp l r : List Leg) (a b : Leg) (x yl yr : List Nat) (ya yb : Nat) (hx : inp.length = x.length)
    (hyl : l.length = yl.length) :
    n.W inp (l ++ [b, a] ++ r) x (yl ++ ([yb, ya] ++ yr)) = n.W inp (l ++ [a, b] ++ r) x (yl ++ ([ya, yb] ++ yr)) := by
  rw [Net.W_eq _ _ _ _ _ hx, Net.W_eq _ _ _ _ _ hx]
  refine Finset.sum_congr rfl (fun σ _ => if_congr ?_ rfl rfl)
  refine and_congr Iff.rfl (and_congr Iff.rfl ?_)
  have key : ∀ (u w : Leg) (p q : Nat), (l ++ [u, w] ++ r).map (legVal σ) = yl ++ ([p, q] ++ yr) ↔
      l.map (legVal σ) = yl ∧ legVal σ u = p ∧ legVal σ w = q ∧ r.map (legVal σ) = yr := by
    intro u w p q
    rw [List.map_append, List.map_append, List.append_assoc]
    constructor
    · intro h
      obtain ⟨h1, h2⟩ := List.append_inj h (by simpa using hyl)
      simp at h2
      exact ⟨h1, h2.1, h2.2.1, h2.2.2⟩
    · rintro ⟨rfl, rfl, rfl, rfl⟩; rfl
  rw [key, key]
  tauto

/-- Connecting two wires sums over their common index. -/
theorem W_cup (n : Net R) (inp l r : List Leg) (a b : Leg) (da : Nat) (ha : LegOK n a) (hda : n.legDim a = da) (hb : LegOK n b)
    (hdb : n.legDim b = da) (x yl yr : List Nat) (hx : inp.length = x.length) (hyl : l.length = yl.length) :
    Net.W ⟨n.nodes, n.conns ++ [(a, b)]⟩ inp (l ++ r) x (yl ++ yr)
      = ∑ i ∈ shapeIdx [da, da], n.W inp (l ++ [a, b] ++ r) x (yl ++ (i ++ yr)) * (if i.head? = i.getLast? then 1 else 0) := by
  rw [Net.W_eq _ _ _ _ _ hx]
  simp only [Net.W_eq _ _ _ _ _ hx, Finset.sum_mul]
  rw [Finset.sum_comm]
  refine Finset.sum_congr rfl (fun σ hσ => ?_)
  have hva := legVal_lt ha hσ
  have hvb := legVal_lt hb hσ
  rw [hda] at hva
  rw [hdb] at hvb
  rw [Finset.sum_eq_single [legVal σ a, legVal σ b]]
  · rw [ite_mul, zero_mul, mul_ite, mul_one, mul_zero, ← ite_and]
    refine if_congr ?_ rfl rfl
    have hS : (l ++ r).map (legVal σ) = yl ++ yr ↔ l.map (legVal σ) = yl ∧ r.map (legVal σ) = yr := by
      rw [List.map_append]
      constructor
      · intro h; exact List.append_inj h (by simpa using hyl)
      · rintro ⟨rfl, rfl⟩; rfl
    have hS' : (l ++ [a, b] ++ r).map (legVal σ) = yl ++ ([legVal σ a, legVal σ b] ++ yr) ↔ l.map (legVal σ) = yl ∧ r.map (legVal σ) = yr := by
      rw [List.map_append, List.map_append, List.append_assoc]
      constructor
      · intro h
        obtain ⟨h1, h2⟩ := List.append_inj h (by simpa using hyl)
        exact ⟨h1, (List.append_inj h2 (by simp)).2⟩
      · rintro ⟨rfl, rfl⟩; rfl
    rw [hS, hS', List.forall_mem_append]
    simp
    tauto
  · intro i hi hne
    rw [if_neg, zero_mul]
    rintro ⟨_, _, h⟩
    apply hne
    have hil : i.length = 2 := (mem_shapeIdx.1 hi).length_eq.symm
    rw [List.map_append, List.map_append, List.append_assoc] at h
    obtain ⟨_, h2⟩ := List.append_inj h (by simpa using hyl)
    exact (List.append_inj h2 (by simp [hil])).1.symm
  · intro h
    exact absurd (mem_shapeIdx.2 (.cons hva (.cons hvb .nil))) h

namespace TnCat
variable (C : TnCat O B R)

theorem legDim_old {n : Net R} (a : NdArray R) (cs : List (Leg × Leg)) {l : Leg} (h : l.node < n.nodes.length) :
    (⟨n.nodes ++ [a], cs⟩ : Net R).legDim l = n.legDim l := by
  simp [Net.legDim, List.getElem?_append_left h]

theorem legDim_new {n : Net R} (a : NdArray R) (cs : List (Leg × Leg)) (k : Nat) :
    (⟨n.nodes ++ [a], cs⟩ : Net R).legDim ⟨n.nodes.length, k⟩ = a.shape.getD k 0 := by
  simp [Net.legDim]

theorem LegOK.mono {n : Net R} (a : NdArray R) (cs : List (Leg × Leg)) {l : Leg} (h : LegOK n l) : LegOK (⟨n.nodes ++ [a], cs⟩ : Net R) l := by
  obtain ⟨b, h1, h2⟩ := h
  exact ⟨b, by simpa [List.getElem?_append_left (List.getElem?_eq_some_iff.1 h1).1] using h1, h2⟩

theorem map_legDim_legsOf {n : Net R} (a : NdArray R) (cs : List (Leg × Leg)) (i j : Nat) (hj : j ≤ a.shape.length) :
    (legsOf n.nodes.length i j).map (⟨n.nodes ++ [a], cs⟩ : Net R).legDim = (a.shape.drop i).take (j - i) := by
  refine List.ext_getElem ?_ (fun k h1 h2 => ?_)
  · simp [legsOf]; omega
  · simp only [legsOf, List.map_map, List.getElem_map, List.getElem_range, Function.comp_apply, legDim_new, List.getElem_take, List.getElem_drop]
    have : i + k < a.shape.length := by simp at h2; omega
    simp [List.getD_eq_getElem?_getD, List.getElem?_eq_getElem this]

theorem split3 {α : Type} (l : List α) (a b c : Nat) (h : l.length = a + b + c) :
    ∃ x y z, l = x ++ y ++ z ∧ x.length = a ∧ y.length = b ∧ z.length = c :=
  ⟨l.take a, (l.drop a).take b, l.drop (a + b), by
    rw [List.append_assoc, ← List.drop_drop, List.take_append_drop, List.take_append_drop], by simp; omega, by simp; omega, by simp; omega⟩

/-- One layer: the loop keeps its invariant and acts on the contraction as the layer does. -/
theorem step_spec {n : Net R} {inp scan : List Leg} {t : List O} (hinv : Inv C n inp scan t) (l : Layer O B) (hl : l.dom = t) (hr : C.Ready l.box) :
    ∃ n' scan', C.step (n, scan) l = .ok (n', scan') ∧ Inv C n' inp scan' l.cod ∧
      ∀ x y, inp.length = x.length → y ∈ C.interp.idx l.cod → n'.W inp scan' x y = C.interp.act l (n.W inp scan x) y := by
  have hlen : scan.length = t.length := by simpa using congrArg List.length hinv.dims
  obtain ⟨sl, sm, sr, hs, h1, h2, h3⟩ := split3 scan l.left.length (BoxSig.dom l.box).length l.right.length
    (by rw [hlen, ← hl]; simp [Layer.dom]; omega)
  subst hs
  have hdims := hinv.dims
  rw [← hl, Layer.dom, List.map_append, List.map_append, List.map_append, List.map_append] at hdims
  obtain ⟨hdims1, hd3⟩ := List.append_inj hdims (by simp [h1, h2])
  obtain ⟨hd1, hd2⟩ := List.append_inj hdims1 (by simp [h1])
  have hlt : ∀ x ∈ sl ++ sm ++ sr, x.node < n.nodes.length := fun x hx => (hinv.hscan x hx).lt
  cases hk : C.kind l.box with
  | swap =>
    have hr' := hr
    simp only [Ready, hk] at hr'
    obtain ⟨p, q, hp, hq⟩ := hr'
    rw [hp] at h2 hd2
    obtain ⟨a, b, rfl⟩ : ∃ a b, sm = [a, b] := List.length_eq_two.1 h2
    simp at hd2
    refine ⟨n, sl ++ [b, a] ++ sr, ?_, ⟨hinv.hconns, hinv.hinp, ?_, ?_⟩, ?_⟩
    · simp only [step, hk, ← h1]
      rw [show (sl ++ [a, b] ++ sr)[sl.length]? = some a by simp, show (sl ++ [a, b] ++ sr)[sl.length + 1]? = some b by simp]
      simp only [Except.ok.injEq, Prod.mk.injEq, true_and]
      rw [List.append_assoc, List.set_append_right _ _ (le_refl _), List.set_append_right _ _ (Nat.le_succ _)]
      simp
    · intro x hx
      exact hinv.hscan x (by simp at hx ⊢; tauto)
    · rw [Layer.cod, hq]
      simp [hd1, hd3, hd2.1, hd2.2]
    · intro x y hx hy
      rw [Layer.cod, List.append_assoc] at hy
      obtain ⟨yl, y2, rfl, hy1, hy2⟩ := C.interp.mem_append hy
      obtain ⟨c, yr, rfl, hy3, hy4⟩ := C.interp.mem_append hy2
      have hyl : sl.length = yl.length := by rw [h1, C.interp.length_of_mem hy1]
      rw [C.interp.act_split _ _ _ (C.interp.length_of_mem hy1) (C.interp.length_of_mem hy3)]
      have hcl := C.interp.length_of_mem hy3
      rw [hq] at hcl
      obtain ⟨u, v, rfl⟩ : ∃ u v, c = [u, v] := List.length_eq_two.1 hcl
      rw [W_swap n inp sl sr a b x yl yr v u hx hyl]
      rw [Finset.sum_eq_single [v, u]]
      · simp [interp, hk]
      · intro i hi hne
        simp only [interp, hk]
        rw [if_neg, mul_zero]
        intro he
        apply hne
        rw [← List.reverse_reverse i, ← he]
        rfl
      · intro h
        exfalso
        apply h
        rw [hp, C.interp.mem_idx]
        rw [hq, C.interp.mem_idx] at hy3
        cases hy3 with
        | cons g1 g2 => cases g2 with | cons g2 _ => exact .cons g2 (.cons g1 .nil)
  | cup =>
    have hr' := hr
    simp only [Ready, hk] at hr'
    obtain ⟨p, q, hp, hq, hpq⟩ := hr'
    rw [hp] at h2 hd2
    obtain ⟨a, b, rfl⟩ : ∃ a b, sm = [a, b] := List.length_eq_two.1 h2
    simp at hd2
    have hda : n.legDim a = C.dim p := hd2.1
    have hdb : n.legDim b = C.dim p := by rw [hd2.2, hpq]
    refine ⟨⟨n.nodes, n.conns ++ [(a, b)]⟩, sl ++ sr, ?_, ⟨?_, hinv.hinp, ?_, ?_⟩, ?_⟩
    · simp only [step, hk, ← h1]
      rw [show (sl ++ [a, b] ++ sr)[sl.length]? = some a by simp, show (sl ++ [a, b] ++ sr)[sl.length + 1]? = some b by simp]
      simp only [Net.connect, hda, hdb, if_true, Except.ok.injEq, Prod.mk.injEq, true_and]
      rw [List.append_assoc, List.take_left, ← List.drop_drop, List.drop_left]
      simp
    · intro c hc
      rcases List.mem_append.1 hc with hc | hc
      · exact hinv.hconns c hc
      · simp at hc; subst hc
        exact ⟨hlt a (by simp), hlt b (by simp)⟩
    · intro x hx
      exact hinv.hscan x (by simp at hx ⊢; tauto)
    · rw [Layer.cod, hq, List.append_nil, List.map_append, List.map_append]
      exact congrArg₂ (· ++ ·) hd1 hd3
    · intro x y hx hy
      rw [Layer.cod, List.append_assoc] at hy
      obtain ⟨yl, y2, rfl, hy1, hy2⟩ := C.interp.mem_append hy
      obtain ⟨c, yr, rfl, hy3, hy4⟩ := C.interp.mem_append hy2
      have hyl : sl.length = yl.length := by rw [h1, C.interp.length_of_mem hy1]
      rw [C.interp.act_split _ _ _ (C.interp.length_of_mem hy1) (C.interp.length_of_mem hy3)]
      have hc : c = [] := by
        have := C.interp.length_of_mem hy3
        rw [hq] at this
        exact List.length_eq_zero_iff.1 this
      subst hc
      rw [List.nil_append, W_cup n inp sl sr a b (C.dim p) (hinv.hscan a (by simp)) hda (hinv.hscan b (by simp)) hdb x yl yr hx hyl,
        idx_eq_shapeIdx, hp]
      have hdim : [p, q].map C.interp.dim = [C.dim p, C.dim p] := by simp [interp, hpq]
      rw [hdim]
      refine Finset.sum_congr rfl (fun i _ => ?_)
      simp [interp, hk]
  | other =>
    have hr' := hr
    simp only [Ready, hk] at hr'
    obtain ⟨a, ha, haok, hash⟩ := hr'
    rw [List.map_append] at hash
    have hdl : ((BoxSig.dom l.box).map C.dim).length = (BoxSig.dom l.box).length := by simp
    have hle : (BoxSig.dom l.box).length ≤ a.shape.length := by rw [hash]; simp
    have htake : ((sl ++ sm ++ sr).drop l.left.length).take (BoxSig.dom l.box).length = sm := by
      rw [List.append_assoc, ← h1, List.drop_left, ← h2, List.take_left]
    refine ⟨⟨n.nodes ++ [a], n.conns ++ sm.zip (legsOf n.nodes.length 0 (BoxSig.dom l.box).length)⟩,
      sl ++ legsOf n.nodes.length (BoxSig.dom l.box).length a.shape.length ++ sr, ?_, ⟨?_, ?_, ?_, ?_⟩, ?_⟩
    · simp only [step, hk, ha, htake]
      rw [connectAll_ok]
      · simp only [Except.ok.injEq, Prod.mk.injEq, true_and]
        congr 1
        · rw [← h1, List.append_assoc, List.take_left]
        · rw [← h1, ← h2, ← List.length_append, List.drop_left]
      · rw [zip_eq_iff _ _ _ (by simp [legsOf, h2]), map_legDim_legsOf a _ 0 _ hle,
          List.map_congr_left (fun x hx => legDim_old a _ (hlt x (by simp [hx]))), hd2, hash]
        simp
    · intro c hc
      rcases List.mem_append.1 hc with hc | hc
      · have := hinv.hconns c hc
        simp; omega
      · have g1 := List.of_mem_zip hc
        have g2 := hlt c.1 (by simp [g1.1])
        have g3 : c.2.node = n.nodes.length := by
          obtain ⟨k, _, hk⟩ := List.mem_map.1 g1.2
          rw [← hk]
        simp; omega
    · intro x hx
      have := hinv.hinp x hx
      simp; omega
    · intro x hx
      rcases List.mem_append.1 hx with hx | hx
      · rcases List.mem_append.1 hx with hx | hx
        · exact LegOK.mono a _ (hinv.hscan x (by simp [hx]))
        · obtain ⟨k, hk, rfl⟩ := List.mem_map.1 hx
          have := List.mem_range.1 hk
          exact ⟨a, by simp, by simp; omega⟩
      · exact LegOK.mono a _ (hinv.hscan x (by simp [hx]))
    · rw [List.map_append, List.map_append, Layer.cod, List.map_append, List.map_append, map_legDim_legsOf a _ _ _ (le_refl _),
        List.map_congr_left (fun x hx => legDim_old a _ (hlt x (by simp [hx]))),
        List.map_congr_left (l := sr) (fun x hx => legDim_old a _ (hlt x (by simp [hx]))), hd1, hd3]
      congr 2
      rw [hash, ← hdl, List.drop_left, List.length_append, Nat.add_sub_cancel_left, List.take_length]
    · intro x y hx hy
      rw [Layer.cod, List.append_assoc] at hy
      obtain ⟨yl, y2, rfl, hy1, hy2⟩ := C.interp.mem_append hy
      obtain ⟨c, yr, rfl, hy3, hy4⟩ := C.interp.mem_append hy2
      have hyl : sl.length = yl.length := by rw [h1, C.interp.length_of_mem hy1]
      rw [C.interp.act_split _ _ _ (C.interp.length_of_mem hy1) (C.interp.length_of_mem hy3)]
      have hshc : InShape ((BoxSig.cod l.box).map C.dim) c := by
        rw [idx_eq_shapeIdx] at hy3
        exact mem_shapeIdx.1 hy3
      have := W_addNode n inp sl sm sr a ((BoxSig.dom l.box).map C.dim) ((BoxSig.cod l.box).map C.dim) hash hinv.hconns hinv.hinp hlt
        (by simp [h2]) x yl c yr hx hyl hshc
      rw [hdl] at this
      rw [this, idx_eq_shapeIdx]
      refine Finset.sum_congr rfl (fun i _ => ?_)
      simp [interp, hk, ha]

/-- The loop over the layers. -/
theorem stepLoop_spec {n : Net R} {inp scan : List Leg} {t c : List O} (hinv : Inv C n inp scan t) (ls : List (Layer O B)) (hc : Chain t ls c)
    (hr : ∀ l ∈ ls, C.Ready l.box) :
    ∃ n' scan', C.stepLoop (n, scan) ls = .ok (n', scan') ∧ Inv C n' inp scan' c ∧
      ∀ x y, inp.length = x.length → y ∈ C.interp.idx c → n'.W inp scan' x y = C.interp.run ls (n.W inp scan x) y := by
  induction ls generalizing n scan t with
  | nil =>
    obtain rfl : t = c := hc
    exact ⟨n, scan, rfl, hinv, fun x y _ _ => rfl⟩
  | cons l ls ih =>
    obtain ⟨h1, h2⟩ := hc
    obtain ⟨n1, s1, e1, i1, w1⟩ := C.step_spec hinv l h1 (hr l (by simp))
    obtain ⟨n2, s2, e2, i2, w2⟩ := ih i1 h2 (fun m hm => hr m (List.mem_cons_of_mem _ hm))
    refine ⟨n2, s2, by simp only [stepLoop, e1, e2], i2, fun x y hx hy => ?_⟩
    rw [w2 x y hx hy, Interp.run]
    exact C.interp.run_congr h2 (fun z hz => w1 x z hx hz) y hy

/-- The legs of the input wires. -/
def inLegs (n : Nat) : List Leg := (List.range n).map (fun k => ⟨k, 0⟩)
/-- The other ends of the copy nodes of the input wires. -/
def outLegs (n : Nat) : List Leg := (List.range n).map (fun k => ⟨k, 1⟩)

theorem InShape.snoc {ds : List Nat} {d : Nat} {x : List Nat} (h : InShape (ds ++ [d]) x) : ∃ y a, x = y ++ [a] ∧ InShape ds y ∧ a < d := by
  have hl := h.length_eq
  have hx : x ≠ [] := by rintro rfl; simp at hl
  refine ⟨x.dropLast, x.getLast hx, (List.dropLast_append_getLast hx).symm, ?_⟩
  rw [← List.dropLast_append_getLast hx] at h
  have hl' : ds.length = x.dropLast.length := by simp at hl ⊢; omega
  unfold InShape at h
  rw [List.forall₂_iff_get] at h
  obtain ⟨h1, h2⟩ := h
  refine ⟨List.forall₂_iff_get.2 ⟨hl', fun i hi hi' => ?_⟩, ?_⟩
  · have := h2 i (by simp; omega) (by simp at hi' ⊢; omega)
    simpa [List.getElem_append_left hi, List.getElem_append_left hi'] using this
  · have := h2 ds.length (by simp) (by simp at hl' ⊢; omega)
    simp only [List.get_eq_getElem] at this
    rw [List.getElem_append_right (le_refl _)] at this
    rw [List.getElem_append_right (by omega)] at this
    simpa using this

theorem get_copyArray_two (d a b : Nat) (ha : a < d) (hb : b < d) : (copyArray R 2 d).get [a, b] = if b = a then 1 else 0 := by
  rw [copyArray, NdArray.get_ofFn (List.replicate 2 d) _ (show InShape (List.replicate 2 d) [a, b] from .cons ha (.cons hb .nil))]
  refine if_congr ?_ rfl rfl
  simp
  exact fun h => h.symm

/-- Before the first layer the network is the identity. -/
theorem initial_W (ds : List Nat) (x s : List Nat) (hx : InShape ds x) (hs : InShape ds s) :
    (initial ds : Net R).W (inLegs ds.length) (outLegs ds.length) x s = if s = x then 1 else 0 := by
  induction ds using List.reverseRecOn generalizing x s with
  | nil =>
    cases hx; cases hs
    simp [Net.W, Net.contract, initial, inLegs, outLegs, assignments, nodeProd]
  | append_singleton ds d ih =>
    obtain ⟨x, a, rfl, hx', ha⟩ := InShape.snoc hx
    obtain ⟨s, b, rfl, hs', hb⟩ := InShape.snoc hs
    have hlx : (inLegs ds.length).length = x.length := by simp [inLegs, hx'.length_eq]
    have hls : (outLegs ds.length).length = s.length := by simp [outLegs, hs'.length_eq]
    have := ih x s hx' hs'
    rw [Net.W_eq _ _ _ _ _ (by simp [inLegs, hx'.length_eq])]
    rw [Net.W_eq _ _ _ _ _ hlx] at this
    have e1 : (initial (ds ++ [d]) : Net R).nodes = (initial ds : Net R).nodes ++ [copyArray R 2 d] := by simp [initial]
    have e2 : inLegs (ds ++ [d]).length = inLegs ds.length ++ [⟨ds.length, 0⟩] := by simp [inLegs, List.range_succ]
    have e3 : outLegs (ds ++ [d]).length = outLegs ds.length ++ [⟨ds.length, 1⟩] := by simp [outLegs, List.range_succ]
    rw [e1, sum_assignments_snoc]
    have hrhs : (if s ++ [b] = x ++ [a] then (1 : R) else 0) = (if s = x then 1 else 0) * (if b = a then 1 else 0) := by
      have : s ++ [b] = x ++ [a] ↔ s = x ∧ b = a := by
        constructor
        · intro h
          obtain ⟨h1, h2⟩ := List.append_inj' h rfl
          exact ⟨h1, by simpa using h2⟩
        · rintro ⟨rfl, rfl⟩; rfl
      by_cases h1 : s = x <;> by_cases h2 : b = a <;> simp [this, h1, h2]
    rw [hrhs, ← this, Finset.sum_mul]
    refine Finset.sum_congr rfl (fun σ hσ => ?_)
    have hlen : ds.length = σ.length := by simpa [initial] using (mem_assignments hσ).length_eq
    rw [Finset.sum_eq_single [a, b]]
    · have hI : (inLegs ds.length).map (legVal (σ ++ [[a, b]])) = (inLegs ds.length).map (legVal σ) :=
        map_legVal_old _ (fun y hy => by obtain ⟨k, hk, rfl⟩ := List.mem_map.1 hy; have := List.mem_range.1 hk; simp; omega)
      have hO : (outLegs ds.length).map (legVal (σ ++ [[a, b]])) = (outLegs ds.length).map (legVal σ) :=
        map_legVal_old _ (fun y hy => by obtain ⟨k, hk, rfl⟩ := List.mem_map.1 hy; have := List.mem_range.1 hk; simp; omega)
      have g0 : legVal (σ ++ [[a, b]]) ⟨ds.length, 0⟩ = a := by rw [hlen, legVal_new]; rfl
      have g1 : legVal (σ ++ [[a, b]]) ⟨ds.length, 1⟩ = b := by rw [hlen, legVal_new]; rfl
      rw [nodeProd_snoc _ _ (by simpa [initial] using hlen), get_copyArray_two d a b ha hb, ite_mul, zero_mul]
      refine if_congr ?_ rfl rfl
      rw [e2, e3, List.map_append, List.map_append, hI, hO]
      simp only [List.map_cons, List.map_nil, g0, g1]
      refine and_congr (by simp [initial]) (and_congr ?_ ?_)
      · exact ⟨fun h => (List.append_inj' h rfl).1, fun h => by rw [h]⟩
      · exact ⟨fun h => (List.append_inj' h rfl).1, fun h => by rw [h]⟩
    · intro τ hτ hne
      rw [if_neg]
      rintro ⟨_, h1, h2⟩
      apply hne
      rw [e2, List.map_append] at h1
      rw [e3, List.map_append] at h2
      have h1' := (List.append_inj' h1 rfl).2
      have h2' := (List.append_inj' h2 rfl).2
      simp only [List.map_cons, List.map_nil, hlen, legVal_new, List.cons.injEq, and_true] at h1' h2'
      have hl : τ.length = 2 := (mem_shapeIdx.1 hτ).length_eq.symm
      obtain ⟨u, v, rfl⟩ := List.length_eq_two.1 hl
      simp at h1' h2'
      rw [h1', h2']
    · intro h
      exact absurd (mem_shapeIdx.2 (.cons ha (.cons hb .nil))) h

theorem initial_inv (t : List O) : Inv C (initial (t.map C.dim) : Net R) (inLegs t.length) (outLegs t.length) t := by
  refine ⟨by simp [initial], ?_, ?_, ?_⟩
  · intro l hl
    obtain ⟨k, hk, rfl⟩ := List.mem_map.1 hl
    simpa [initial] using List.mem_range.1 hk
  · intro l hl
    obtain ⟨k, hk, rfl⟩ := List.mem_map.1 hl
    have hk' : k < t.length := List.mem_range.1 hk
    exact ⟨copyArray R 2 (C.dim t[k]), by simp [initial, List.getElem?_map, List.getElem?_eq_getElem hk'], by simp [copyArray, NdArray.ofFn]⟩
  · refine List.ext_getElem (by simp [outLegs]) (fun k h1 h2 => ?_)
    have hk : k < t.length := by simpa using h2
    simp [outLegs, Net.legDim, initial, List.getElem?_map, List.getElem?_eq_getElem hk, copyArray, NdArray.ofFn]

/-! ### Replacing boxes by their decompositions -/

theorem tensor3_eq (l r : List O) (e : Diagram O B) :
    tensor (tensor (Diagram.id l) e) (Diagram.id r) = ⟨l ++ e.dom ++ r, l ++ e.cod ++ r, e.layers.map (Layer.extend l r)⟩ := by
  ext1
  · simp [tensor_dom, Diagram.id]
  · simp [tensor_cod, Diagram.id]
  · simp [tensor_layers, Diagram.id, Layer.extend]

theorem chain_extend (l r : List O) {a c : List O} {ls : List (Layer O B)} (h : Chain a ls c) :
    Chain (l ++ a ++ r) (ls.map (Layer.extend l r)) (l ++ c ++ r) := by
  induction ls generalizing a with
  | nil => obtain rfl : a = c := h; rfl
  | cons x ls ih =>
    obtain ⟨h1, h2⟩ := h
    refine ⟨?_, ?_⟩
    · rw [← h1]; simp [Layer.dom, Layer.extend]
    · have := ih h2
      simpa [Layer.cod, Layer.extend] using this

theorem chain_append {a b c : List O} {xs ys : List (Layer O B)} (h1 : Chain a xs b) (h2 : Chain b ys c) : Chain a (xs ++ ys) c := by
  induction xs generalizing a with
  | nil => obtain rfl : a = b := h1; exact h2
  | cons x xs ih => exact ⟨h1.1, ih h1.2⟩

/-- The decompositions have the types of the boxes they replace. -/
def DecTyped (b : B) : Prop := ∀ e, C.decompose b = some e → e.WT ∧ e.dom = BoxSig.dom b ∧ e.cod = BoxSig.cod b

theorem getD_typed {b : B} (h : C.DecTyped b) : ((C.decompose b).getD (ofBox b)).WT ∧ ((C.decompose b).getD (ofBox b)).dom = BoxSig.dom b
    ∧ ((C.decompose b).getD (ofBox b)).cod = BoxSig.cod b := by
  cases hb : C.decompose b with
  | none => exact ⟨by simp [ofBox, Diagram.WT, Chain, Layer.dom, Layer.cod], rfl, rfl⟩
  | some e => exact h e hb

/-- A layer with its box replaced by a diagram that denotes the same tensor acts in the same way. -/
theorem run_replaced (J : Interp O B R) (l : Layer O B) {e : Diagram O B} (he : e.WT) (hd : e.dom = BoxSig.dom l.box) (hc : e.cod = BoxSig.cod l.box)
    (hm : ∀ x ∈ J.idx e.dom, ∀ y ∈ J.idx e.cod, J.mat e x y = J.ten l.box x y) (v : List Nat → R) {y : List Nat} (hy : y ∈ J.idx l.cod) :
    J.run (e.layers.map (Layer.extend l.left l.right)) v y = J.act l v y := by
  rw [Layer.cod, List.append_assoc] at hy
  obtain ⟨yl, y2, rfl, hy1, hy2⟩ := J.mem_append hy
  obtain ⟨c, yr, rfl, hy3, hy4⟩ := J.mem_append hy2
  rw [J.act_split _ _ _ (J.length_of_mem hy1) (J.length_of_mem hy3)]
  have e1 : e.layers.map (Layer.extend l.left l.right) = (e.layers.map (Layer.extend l.left [])).map (Layer.extend [] l.right) := by
    simp [Layer.extend]
  have hch : Chain (l.left ++ e.dom) (e.layers.map (Layer.extend l.left [])) (l.left ++ e.cod) := by
    simpa using chain_extend l.left [] (show Chain e.dom e.layers e.cod from he)
  rw [e1, ← List.append_assoc, J.run_extend_right l.right hch _ (J.append_mem hy1 (by rw [hc]; exact hy3)),
    J.run_extend_left l.left (show Chain e.dom e.layers e.cod from he) _ (by rw [hc]; exact hy3) (J.length_of_mem hy1),
    J.run_eq_mat he _ (by rw [hc]; exact hy3), hd]
  refine Finset.sum_congr rfl (fun k hk => ?_)
  rw [hm k (by rw [hd]; exact hk) c (by rw [hc]; exact hy3), List.append_assoc]

theorem expandLoop_spec (ls : List (Layer O B)) (acc : Diagram O B) (c : List O) (hacc : acc.WT) (hc : Chain acc.cod ls c)
    (hdec : ∀ l ∈ ls, C.DecTyped l.box) :
    ∃ diag, C.expandLoop acc ls = .ok diag ∧ diag.dom = acc.dom ∧ diag.cod = c ∧ diag.WT ∧
      diag.boxes = acc.boxes ++ (ls.map (fun l => ((C.decompose l.box).getD (ofBox l.box)).boxes)).flatten ∧
      ∀ J : Interp O B R, (∀ l ∈ ls, ∀ e, C.decompose l.box = some e → ∀ x ∈ J.idx e.dom, ∀ y ∈ J.idx e.cod, J.mat e x y = J.ten l.box x y) →
        ∀ v, ∀ y ∈ J.idx c, J.run diag.layers v y = J.run ls (J.run acc.layers v) y := by
  induction ls generalizing acc with
  | nil =>
    obtain rfl : acc.cod = c := hc
    exact ⟨acc, rfl, rfl, rfl, hacc, by simp, fun J _ v y _ => rfl⟩
  | cons l ls ih =>
    obtain ⟨h1, h2⟩ := hc
    obtain ⟨t1, t2, t3⟩ := C.getD_typed (hdec l (by simp))
    set e := (C.decompose l.box).getD (ofBox l.box) with he
    have hdom : (tensor (tensor (Diagram.id l.left) e) (Diagram.id l.right)).dom = acc.cod := by
      rw [tensor3_eq, ← h1]; simp [Layer.dom, t2]
    have hok := andThen_eq_ok hdom.symm
    have hcod' : l.left ++ e.cod ++ l.right = l.cod := by simp [Layer.cod, t3]
    have hwt : (⟨acc.dom, l.cod, acc.layers ++ e.layers.map (Layer.extend l.left l.right)⟩ : Diagram O B).WT := by
      refine chain_append hacc ?_
      have := chain_extend l.left l.right (show Chain e.dom e.layers e.cod from t1)
      rw [hcod'] at this
      rw [← h1]
      simpa [Layer.dom, t2] using this
    obtain ⟨diag, g1, g2, g3, g4, g5, g6⟩ := ih ⟨acc.dom, l.cod, acc.layers ++ e.layers.map (Layer.extend l.left l.right)⟩ hwt h2
      (fun m hm => hdec m (List.mem_cons_of_mem _ hm))
    refine ⟨diag, ?_, g2, g3, g4, ?_, ?_⟩
    · rw [expandLoop, ← he, hok]
      simp only [tensor3_eq, hcod']
      exact g1
    · rw [g5]
      simp [boxes, Layer.extend, Function.comp_def, ← he]
    · intro J hJ v y hy
      rw [g6 J (fun m hm => hJ m (List.mem_cons_of_mem _ hm)) v y hy]
      show J.run ls (J.run (acc.layers ++ e.layers.map (Layer.extend l.left l.right)) v) y = J.run ls (J.act l (J.run acc.layers v)) y
      rw [J.run_append]
      refine J.run_congr h2 (fun z hz => ?_) y hy
      refine run_replaced J l t1 t2 t3 ?_ _ hz
      cases hb : C.decompose l.box with
      | none =>
        intro x hx y hy
        have e0 : e = ofBox l.box := by rw [he, hb]; rfl
        rw [e0] at hx hy ⊢
        exact J.mat_ofBox _ hx hy
      | some e' =>
        have e0 : e = e' := by rw [he, hb]; rfl
        rw [e0]
        exact hJ l (by simp) e' hb

/-- `to_tn` succeeds on every well-typed diagram whose boxes have arrays, and the network contracts to the matrix of the diagram. -/
theorem eval_spec {d : Diagram O B} (hd : d.WT) (hdec : ∀ l ∈ d.layers, C.DecTyped l.box)
    (hr : ∀ l ∈ d.layers, ∀ b ∈ ((C.decompose l.box).getD (ofBox l.box)).boxes, C.Ready b)
    (hsem : ∀ l ∈ d.layers, ∀ e, C.decompose l.box = some e →
      ∀ x ∈ C.interp.idx e.dom, ∀ y ∈ C.interp.idx e.cod, C.interp.mat e x y = C.interp.ten l.box x y) :
    ∃ F, C.eval d = .ok F ∧ ∀ x ∈ C.interp.idx d.dom, ∀ y ∈ C.interp.idx d.cod, F (x ++ y) = C.interp.mat d x y := by
  obtain ⟨diag, g1, g2, g3, g4, g5, g6⟩ := C.expandLoop_spec d.layers (Diagram.id d.dom) d.cod rfl hd hdec
  have hrd : ∀ l ∈ diag.layers, C.Ready l.box := by
    intro l hl
    have hb : l.box ∈ diag.boxes := List.mem_map.2 ⟨l, hl, rfl⟩
    rw [g5] at hb
    simp only [Diagram.boxes, Diagram.id, List.map_nil, List.nil_append, List.mem_flatten, List.mem_map] at hb
    obtain ⟨bs, ⟨m, hm, rfl⟩, hb⟩ := hb
    exact hr m hm l.box (by simpa [Diagram.boxes] using hb)
  have hch : Chain d.dom diag.layers d.cod := by
    have : Chain diag.dom diag.layers diag.cod := g4
    rwa [g2, g3] at this
  obtain ⟨n', scan', e1, i1, w1⟩ := C.stepLoop_spec (C.initial_inv d.dom) diag.layers hch hrd
  refine ⟨n'.contract (inLegs d.dom.length ++ scan'), ?_, ?_⟩
  · simp only [eval, toTn, g1]
    have e1' : C.stepLoop (initial (d.dom.map C.dim), (List.range d.dom.length).map (fun k => (⟨k, 1⟩ : Leg))) diag.layers = .ok (n', scan') := e1
    rw [e1']
    rfl
  · intro x hx y hy
    have hxl : (inLegs d.dom.length).length = x.length := by simp [inLegs, C.interp.length_of_mem hx]
    have := w1 x y hxl hy
    rw [Net.W] at this
    rw [this, Interp.mat]
    refine Eq.trans (C.interp.run_congr hch (fun z hz => ?_) y hy) (g6 C.interp hsem _ y hy)
    have hx' : InShape (d.dom.map C.dim) x := by rw [idx_eq_shapeIdx] at hx; exact mem_shapeIdx.1 hx
    have hz' : InShape (d.dom.map C.dim) z := by rw [idx_eq_shapeIdx] at hz; exact mem_shapeIdx.1 hz
    have := initial_W (R := R) (d.dom.map C.dim) x z hx' hz'
    rw [List.length_map] at this
    exact this

end TnCat
end Lambeq
