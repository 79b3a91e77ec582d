import Verif.Tensor.CategoryProps

/-!
# Evaluation of tensor diagrams is compositional (C67), and the snake equations (C53)
-/

namespace Lambeq
open Diagram
set_option linter.unusedSectionVars false
set_option linter.unusedSimpArgs false

variable {R : Type} [CommSemiring R] [StarRing R] [Inhabited R]

theorem EvalOK.ofId (t : List Nat) : EvalOK (Diagram.id t : Diagram Nat (TBox R)) := ⟨rfl, by simp [Diagram.id]⟩

theorem EvalOK.ofBox {b : TBox R} (h : b.Evaluable) : EvalOK (ofBox b : Diagram Nat (TBox R)) :=
  ⟨by simp [Diagram.ofBox, Diagram.WT, Chain, Layer.dom, Layer.cod], by simpa [Diagram.ofBox] using h⟩

theorem EvalOK.comp {f g h : Diagram Nat (TBox R)} (hf : EvalOK f) (hg : EvalOK g) (hc : andThen f g = .ok h) : EvalOK h := by
  obtain ⟨h1, rfl⟩ := andThen_ok_iff.1 hc
  refine ⟨?_, ?_⟩
  · exact TnCat.chain_append hf.wt (h1 ▸ hg.wt)
  · intro l hl
    rcases List.mem_append.1 hl with hl | hl
    · exact hf.boxes l hl
    · exact hg.boxes l hl

theorem EvalOK.tensor {f g : Diagram Nat (TBox R)} (hf : EvalOK f) (hg : EvalOK g) : EvalOK (tensor f g) := by
  refine ⟨?_, ?_⟩
  · rw [Diagram.WT, tensor_dom, tensor_cod, tensor_layers]
    have h1 := TnCat.chain_extend [] g.dom hf.wt
    have h2 := TnCat.chain_extend f.cod [] hg.wt
    simp only [List.nil_append, List.append_nil] at h1 h2
    exact TnCat.chain_append h1 h2
  · intro l hl
    rw [tensor_layers] at hl
    rcases List.mem_append.1 hl with hl | hl
    · obtain ⟨l', h', rfl⟩ := List.mem_map.1 hl; exact hf.boxes l' h'
    · obtain ⟨l', h', rfl⟩ := List.mem_map.1 hl; exact hg.boxes l' h'

theorem mem_idxT {s i : List Nat} : i ∈ (TBox.tnCat (R := R)).interp.idx s ↔ InShape s i := by
  rw [idx_eq_shapeIdx, mem_shapeIdx]
  simp [TnCat.interp, TBox.tnCat]

theorem idxT (s : List Nat) : (TBox.tnCat (R := R)).interp.idx s = shapeIdx s := by
  ext i; rw [mem_idxT, mem_shapeIdx]

/-- **C67 (totality).** Every well-typed diagram of evaluable boxes can be evaluated. -/
theorem C67_eval_total {d : Diagram Nat (TBox R)} (h : EvalOK d) : ∃ F, tensorEval d = .ok F :=
  let ⟨F, h1, _⟩ := tensorEval_spec h; ⟨F, h1⟩

/-- **C67 (identity).** The identity evaluates to the identity matrix. -/
theorem C67_eval_id (t : List Nat) {F : List Nat → R} (hF : tensorEval (Diagram.id t : Diagram Nat (TBox R)) = .ok F) :
    ∀ x y, InShape t x → InShape t y → F (x ++ y) = if x = y then 1 else 0 := by
  obtain ⟨G, h1, h2⟩ := tensorEval_spec (EvalOK.ofId (R := R) t)
  cases h1.symm.trans hF
  intro x y hx hy
  rw [h2 x y hx hy, Interp.mat_id]
  simp [eq_comm]

/-- **C67 (composition).** `f >> g` evaluates to the matrix product, contracting over the wires in the middle. -/
theorem C67_eval_comp {f g h : Diagram Nat (TBox R)} (hf : EvalOK f) (hg : EvalOK g) (hc : andThen f g = .ok h)
    {F G H : List Nat → R} (hF : tensorEval f = .ok F) (hG : tensorEval g = .ok G) (hH : tensorEval h = .ok H) :
    ∀ x z, InShape f.dom x → InShape g.cod z → H (x ++ z) = ∑ y ∈ shapeIdx f.cod, F (x ++ y) * G (y ++ z) := by
  obtain ⟨F', f1, f2⟩ := tensorEval_spec hf
  obtain ⟨G', g1, g2⟩ := tensorEval_spec hg
  obtain ⟨H', h1, h2⟩ := tensorEval_spec (hf.comp hg hc)
  cases f1.symm.trans hF
  cases g1.symm.trans hG
  cases h1.symm.trans hH
  intro x z hx hz
  have hdom : h.dom = f.dom ∧ h.cod = g.cod ∧ g.dom = f.cod := by
    obtain ⟨e, rfl⟩ := andThen_ok_iff.1 hc; exact ⟨rfl, rfl, e.symm⟩
  rw [h2 x z (hdom.1 ▸ hx) (hdom.2.1 ▸ hz), Interp.mat_comp _ hg.wt hc x (mem_idxT.2 hz), idxT]
  refine Finset.sum_congr rfl (fun y hy => ?_)
  have hy := mem_shapeIdx.1 hy
  rw [f2 x y hx hy, g2 y z (hdom.2.2 ▸ hy) hz]

/-- **C67 (tensor).** `f @ g` evaluates to the Kronecker product. -/
theorem C67_eval_tensor {f g : Diagram Nat (TBox R)} (hf : EvalOK f) (hg : EvalOK g)
    {F G H : List Nat → R} (hF : tensorEval f = .ok F) (hG : tensorEval g = .ok G) (hH : tensorEval (tensor f g) = .ok H) :
    ∀ x x' y y', InShape f.dom x → InShape g.dom x' → InShape f.cod y → InShape g.cod y' →
      H ((x ++ x') ++ (y ++ y')) = F (x ++ y) * G (x' ++ y') := by
  obtain ⟨F', f1, f2⟩ := tensorEval_spec hf
  obtain ⟨G', g1, g2⟩ := tensorEval_spec hg
  obtain ⟨H', h1, h2⟩ := tensorEval_spec (hf.tensor hg)
  cases f1.symm.trans hF
  cases g1.symm.trans hG
  cases h1.symm.trans hH
  intro x x' y y' hx hx' hy hy'
  rw [h2 (x ++ x') (y ++ y') (by rw [tensor_dom]; exact List.rel_append hx hx') (by rw [tensor_cod]; exact List.rel_append hy hy'),
    Interp.mat_tensor _ hf.wt hg.wt (mem_idxT.2 hx) (mem_idxT.2 hx') (mem_idxT.2 hy) (mem_idxT.2 hy'), f2 x y hx hy, g2 x' y' hx' hy']

/-- The value of a single box. -/
theorem eval_ofBox {b : TBox R} (hb : b.Evaluable) {F : List Nat → R} (hF : tensorEval (ofBox b) = .ok F) :
    ∀ x y, InShape b.dom x → InShape b.cod y → F (x ++ y) = TBox.tnCat.interp.ten b x y := by
  obtain ⟨G, h1, h2⟩ := tensorEval_spec (EvalOK.ofBox hb)
  cases h1.symm.trans hF
  intro x y hx hy
  rw [h2 x y hx hy, Interp.mat_ofBox _ _ (mem_idxT.2 hx) (mem_idxT.2 hy)]

/-- **C67 (boxes).** A box with data evaluates to its data, read in C order in the shape given by its types. -/
theorem C67_eval_box (name : String) (d c : List Nat) (a : NdArray R) (ha : a.OK) (hl : a.flat.length = (d ++ c).prod)
    {F : List Nat → R} (hF : tensorEval (ofBox (TBox.gen name d c (some a) 0)) = .ok F) :
    ∀ x y, InShape d x → InShape c y → F (x ++ y) = a.flat.getD (ravel (d ++ c) (x ++ y)) default := by
  intro x y hx hy
  rw [eval_ofBox (b := TBox.gen name d c (some a) 0) ⟨a, rfl, ha, fun _ => hl, by simp⟩ hF x y hx hy]
  simp only [TnCat.interp, TBox.tnCat, TBox.array, NdArray.reshape, hl, if_true]
  rfl

theorem sum_pick3 (n : Nat) (f : Nat → Nat → Nat → R) (a b c : Nat) (ha : a < n) (hb : b < n) (hc : c < n)
    (h : ∀ a' b' c', ¬ (a' = a ∧ b' = b ∧ c' = c) → f a' b' c' = 0) :
    ∑ a' ∈ Finset.range n, ∑ b' ∈ Finset.range n, ∑ c' ∈ Finset.range n, f a' b' c' = f a b c := by
  rw [Finset.sum_eq_single a, Finset.sum_eq_single b, Finset.sum_eq_single c]
  · intro c' _ hne; exact h _ _ _ (fun e => hne e.2.2)
  · intro hn; exact absurd (Finset.mem_range.2 hc) hn
  · intro b' _ hne; exact Finset.sum_eq_zero (fun c' _ => h _ _ _ (fun e => hne e.2.1))
  · intro hn; exact absurd (Finset.mem_range.2 hb) hn
  · intro a' _ hne; exact Finset.sum_eq_zero (fun b' _ => Finset.sum_eq_zero (fun c' _ => h _ _ _ (fun e => hne e.1)))
  · intro hn; exact absurd (Finset.mem_range.2 ha) hn

theorem inShape_two {a b : Nat} {x : List Nat} (h : InShape [a, b] x) : ∃ i j, x = [i, j] ∧ i < a ∧ j < b := by
  obtain ⟨i, x1, h1, h2, rfl⟩ := List.forall₂_cons_left_iff.1 h
  obtain ⟨j, x2, h3, h4, rfl⟩ := List.forall₂_cons_left_iff.1 h2
  obtain rfl := List.forall₂_nil_left_iff.1 h4
  exact ⟨i, j, rfl, h1, h3⟩

theorem InShape.two {a b i j : Nat} (h1 : i < a) (h2 : j < b) : InShape [a, b] [i, j] := .cons h1 (.cons h2 .nil)
theorem InShape.one {a i : Nat} (h1 : i < a) : InShape [a] [i] := .cons h1 .nil

/-- **C67 (structural boxes).** Cups pair equal indices, swaps exchange them, spiders force all of them to be equal — in every dimension. -/
theorem C67_eval_structural {F : List Nat → R} :
    (∀ n, tensorEval (ofBox (TBox.cup n n : TBox R)) = .ok F → ∀ i j, i < n → j < n → F [i, j] = if i = j then 1 else 0) ∧
    (∀ m n, tensorEval (ofBox (TBox.swap m n : TBox R)) = .ok F →
      ∀ i j k l, i < m → j < n → k < n → l < m → F [i, j, k, l] = if i = l ∧ j = k then 1 else 0) ∧
    (∀ t a b, tensorEval (ofBox (TBox.spider t a b : TBox R)) = .ok F →
      ∀ x, InShape (List.replicate (a + b) t) x → F x = if ∀ i ∈ x, ∀ j ∈ x, i = j then 1 else 0) := by
  refine ⟨?_, ?_, ?_⟩
  · intro n hF i j hi hj
    have := eval_ofBox (b := TBox.cup n n) rfl hF [i, j] [] (.two hi hj) .nil
    simpa [TnCat.interp, TBox.tnCat] using this
  · intro m n hF i j k l hi hj hk hl
    have := eval_ofBox (b := TBox.swap m n) trivial hF [i, j] [k, l] (.two hi hj) (.two hk hl)
    simp only [List.cons_append, List.nil_append] at this
    rw [this]
    simp [TnCat.interp, TBox.tnCat]
    exact if_congr (by constructor <;> (rintro ⟨rfl, rfl⟩; exact ⟨rfl, rfl⟩)) rfl rfl
  · intro t a b hF x hx
    have hx' := hx
    rw [List.replicate_add] at hx'
    obtain ⟨u, v, hu, hv, rfl⟩ : ∃ u v, InShape (List.replicate a t) u ∧ InShape (List.replicate b t) v ∧ x = u ++ v := by
      have := (mem_idxT (R := R)).2 hx'
      obtain ⟨u, v, rfl, hu, hv⟩ := Interp.mem_append _ this
      exact ⟨u, v, mem_idxT.1 hu, mem_idxT.1 hv, rfl⟩
    rw [eval_ofBox (b := TBox.spider t a b) trivial hF u v hu hv]
    simp only [TnCat.interp, TBox.tnCat, TBox.array, copyArray]
    rw [NdArray.get_ofFn _ _ hx]

/-! ## The snake equations -/

/-- `Cap >> Cup` bent into a snake: `(Id(n) @ Cap(n, n)) >> (Cup(n, n) @ Id(n))`. -/
def snakeL (R : Type) (n : Nat) : Diagram Nat (TBox R) :=
  ⟨[n], [n], [⟨[n], .cap n n, []⟩, ⟨[], .cup n n, [n]⟩]⟩

/-- The other snake: `(Cap(n, n) @ Id(n)) >> (Id(n) @ Cup(n, n))`. -/
def snakeR (R : Type) (n : Nat) : Diagram Nat (TBox R) :=
  ⟨[n], [n], [⟨[], .cap n n, [n]⟩, ⟨[n], .cup n n, []⟩]⟩

theorem snake_is_composite (n : Nat) :
    andThen (tensor (Diagram.id [n]) (ofBox (.cap n n : TBox R))) (tensor (ofBox (.cup n n : TBox R)) (Diagram.id [n])) = .ok (snakeL R n) ∧
    andThen (tensor (ofBox (.cap n n : TBox R)) (Diagram.id [n])) (tensor (Diagram.id [n]) (ofBox (.cup n n : TBox R))) = .ok (snakeR R n) := by
  constructor <;> (apply andThen_ok_iff.2; refine ⟨rfl, ?_⟩; ext1 <;> rfl)

theorem snake_ok (n : Nat) (hn : 0 < n) : EvalOK (snakeL R n) ∧ EvalOK (snakeR R n) := by
  have h1 : EvalOK (ofBox (.cap n n : TBox R)) := EvalOK.ofBox ⟨rfl, hn⟩
  have h2 : EvalOK (ofBox (.cup n n : TBox R)) := EvalOK.ofBox rfl
  exact ⟨((EvalOK.ofId [n]).tensor h1).comp (h2.tensor (EvalOK.ofId [n])) (snake_is_composite n).1,
    (h1.tensor (EvalOK.ofId [n])).comp ((EvalOK.ofId [n]).tensor h2) (snake_is_composite n).2⟩

/-- What a cap evaluates to: ones in the two extreme corners only. -/
theorem eval_cap (n : Nat) (hn : 0 < n) {F : List Nat → R} (hF : tensorEval (ofBox (TBox.cap n n : TBox R)) = .ok F) (i j : Nat)
    (hi : i < n) (hj : j < n) : F [i, j] = if (i = 0 ∧ j = 0) ∨ (i + 1 = n ∧ j + 1 = n) then 1 else 0 := by
  have := eval_ofBox (b := TBox.cap n n) ⟨rfl, hn⟩ hF [] [i, j] .nil (.two hi hj)
  rw [List.nil_append] at this
  rw [this, ← TBox.get_cap n i j hi hj]
  simp only [TnCat.interp, TBox.tnCat, TBox.capArray]
  rfl

/-- Both snakes evaluate to the array of the cap. -/
theorem eval_snakes (n : Nat) (hn : 0 < n) {F G : List Nat → R} (hF : tensorEval (snakeL R n) = .ok F) (hG : tensorEval (snakeR R n) = .ok G)
    (i j : Nat) (hi : i < n) (hj : j < n) :
    F [i, j] = (if (i = 0 ∧ j = 0) ∨ (i + 1 = n ∧ j + 1 = n) then 1 else 0) ∧
    G [i, j] = (if (i = 0 ∧ j = 0) ∨ (i + 1 = n ∧ j + 1 = n) then 1 else 0) := by
  have hcap : EvalOK (ofBox (.cap n n : TBox R)) := EvalOK.ofBox ⟨rfl, hn⟩
  have hcup : EvalOK (ofBox (.cup n n : TBox R)) := EvalOK.ofBox rfl
  obtain ⟨A, hA⟩ := C67_eval_total hcap
  obtain ⟨U, hU⟩ := C67_eval_total hcup
  obtain ⟨D, hD⟩ := C67_eval_total (EvalOK.ofId (R := R) [n])
  have cupv := (C67_eval_structural (F := U)).1 n hU
  have idv := C67_eval_id [n] hD
  have hid : ∀ a b, a < n → b < n → D [a, b] = if a = b then 1 else 0 := fun a b ha hb => by
    have := idv [a] [b] (.one ha) (.one hb)
    simpa using this
  have capv := fun a b ha hb => eval_cap n hn hA a b ha hb
  have sum3 : ∀ f : List Nat → R, ∑ y ∈ shapeIdx [n, n, n], f y = ∑ a ∈ Finset.range n, ∑ b ∈ Finset.range n, ∑ c ∈ Finset.range n, f [a, b, c] := by
    intro f
    rw [← idxT (R := R), Interp.sum_idx_cons]
    refine Finset.sum_congr rfl (fun a _ => ?_)
    rw [Interp.sum_idx_cons]
    refine Finset.sum_congr rfl (fun b _ => ?_)
    rw [Interp.sum_idx_cons]
    refine Finset.sum_congr rfl (fun c _ => ?_)
    simp [Interp.idx]
  constructor
  · have e1 := (EvalOK.ofId (R := R) [n]).tensor hcap
    have e2 := hcup.tensor (EvalOK.ofId (R := R) [n])
    obtain ⟨P, hP⟩ := C67_eval_total e1
    obtain ⟨Q, hQ⟩ := C67_eval_total e2
    have hc := C67_eval_comp e1 e2 (snake_is_composite n).1 hP hQ hF [i] [j] (.one hi) (.one hj)
    rw [show ([i] ++ [j] : List Nat) = [i, j] from rfl] at hc
    rw [hc, show (tensor (Diagram.id [n]) (ofBox (.cap n n : TBox R))).cod = [n, n, n] from rfl, sum3]
    have hp : ∀ a b c, a < n → b < n → c < n → P ([i] ++ [a, b, c]) = (if i = a then 1 else 0) * A [b, c] := by
      intro a b c ha hb hc
      have := C67_eval_tensor (EvalOK.ofId (R := R) [n]) hcap hD hA hP [i] [] [a] [b, c] (.one hi) .nil (.one ha) (.two hb hc)
      simpa [hid i a hi ha] using this
    have hq : ∀ a b c, a < n → b < n → c < n → Q ([a, b, c] ++ [j]) = (if a = b then 1 else 0) * (if c = j then 1 else 0) := by
      intro a b c ha hb hc
      have := C67_eval_tensor hcup (EvalOK.ofId (R := R) [n]) hU hD hQ [a, b] [c] [] [j] (.two ha hb) (.one hc) .nil (.one hj)
      simpa [hid c j hc hj, cupv a b ha hb] using this
    calc _ = ∑ a ∈ Finset.range n, ∑ b ∈ Finset.range n, ∑ c ∈ Finset.range n,
        (if i = a then 1 else 0) * A [b, c] * ((if a = b then 1 else 0) * (if c = j then 1 else 0)) := by
          refine Finset.sum_congr rfl (fun a ha => Finset.sum_congr rfl (fun b hb => Finset.sum_congr rfl (fun c hc => ?_)))
          rw [hp a b c (Finset.mem_range.1 ha) (Finset.mem_range.1 hb) (Finset.mem_range.1 hc),
            hq a b c (Finset.mem_range.1 ha) (Finset.mem_range.1 hb) (Finset.mem_range.1 hc)]
      _ = A [i, j] := by
          rw [sum_pick3 n _ i i j hi hi hj]
          · simp
          · intro a b c hne
            split_ifs <;> simp_all
      _ = _ := capv i j hi hj
  · have e1 := hcap.tensor (EvalOK.ofId (R := R) [n])
    have e2 := (EvalOK.ofId (R := R) [n]).tensor hcup
    obtain ⟨P, hP⟩ := C67_eval_total e1
    obtain ⟨Q, hQ⟩ := C67_eval_total e2
    have hc := C67_eval_comp e1 e2 (snake_is_composite n).2 hP hQ hG [i] [j] (.one hi) (.one hj)
    rw [show ([i] ++ [j] : List Nat) = [i, j] from rfl] at hc
    rw [hc, show (tensor (ofBox (.cap n n : TBox R)) (Diagram.id [n])).cod = [n, n, n] from rfl, sum3]
    have hp : ∀ a b c, a < n → b < n → c < n → P ([i] ++ [a, b, c]) = A [a, b] * (if i = c then 1 else 0) := by
      intro a b c ha hb hc
      have := C67_eval_tensor hcap (EvalOK.ofId (R := R) [n]) hA hD hP [] [i] [a, b] [c] .nil (.one hi) (.two ha hb) (.one hc)
      simpa [hid i c hi hc] using this
    have hq : ∀ a b c, a < n → b < n → c < n → Q ([a, b, c] ++ [j]) = (if a = j then 1 else 0) * (if b = c then 1 else 0) := by
      intro a b c ha hb hc
      have := C67_eval_tensor (EvalOK.ofId (R := R) [n]) hcup hD hU hQ [a] [b, c] [j] [] (.one ha) (.two hb hc) (.one hj) .nil
      simpa [hid a j ha hj, cupv b c hb hc] using this
    calc _ = ∑ a ∈ Finset.range n, ∑ b ∈ Finset.range n, ∑ c ∈ Finset.range n,
        A [a, b] * (if i = c then 1 else 0) * ((if a = j then 1 else 0) * (if b = c then 1 else 0)) := by
          refine Finset.sum_congr rfl (fun a ha => Finset.sum_congr rfl (fun b hb => Finset.sum_congr rfl (fun c hc => ?_)))
          rw [hp a b c (Finset.mem_range.1 ha) (Finset.mem_range.1 hb) (Finset.mem_range.1 hc),
            hq a b c (Finset.mem_range.1 ha) (Finset.mem_range.1 hb) (Finset.mem_range.1 hc)]
      _ = A [j, i] := by
          rw [sum_pick3 n _ j i i hj hi hi]
          · simp
          · intro a b c hne
            split_ifs <;> simp_all
      _ = _ := by rw [capv j i hj hi]; exact if_congr (by tauto) rfl rfl

/-- **C53 (dimension at most two).** On a wire of dimension one or two both snakes evaluate to the identity. -/
theorem C53_snake_partial (n : Nat) (hn : n = 1 ∨ n = 2) :
    ∃ F G D : List Nat → R, tensorEval (snakeL R n) = .ok F ∧ tensorEval (snakeR R n) = .ok G ∧
      tensorEval (Diagram.id [n] : Diagram Nat (TBox R)) = .ok D ∧
      ∀ i j, i < n → j < n → F [i, j] = D [i, j] ∧ G [i, j] = D [i, j] := by
  have h0 : 0 < n := by omega
  obtain ⟨F, hF⟩ := C67_eval_total (snake_ok (R := R) n h0).1
  obtain ⟨G, hG⟩ := C67_eval_total (snake_ok (R := R) n h0).2
  obtain ⟨D, hD⟩ := C67_eval_total (EvalOK.ofId (R := R) [n])
  refine ⟨F, G, D, hF, hG, hD, fun i j hi hj => ?_⟩
  have := eval_snakes n h0 hF hG i j hi hj
  have hd : D [i, j] = if i = j then 1 else 0 := by
    have := C67_eval_id [n] hD [i] [j] (.one hi) (.one hj)
    simpa using this
  rw [this.1, this.2, hd]
  have : ((i = 0 ∧ j = 0) ∨ (i + 1 = n ∧ j + 1 = n)) ↔ i = j := by omega
  simp only [this, and_self]

/-- **C53 (refuted).** In every dimension from three on, neither snake is the identity: the entry at `(1, 1)` is zero. -/
theorem C53_refuted_snake (n : Nat) (hn : 3 ≤ n) (hR : (1 : R) ≠ 0) :
    ∃ F G D : List Nat → R, tensorEval (snakeL R n) = .ok F ∧ tensorEval (snakeR R n) = .ok G ∧
      tensorEval (Diagram.id [n] : Diagram Nat (TBox R)) = .ok D ∧
      F [1, 1] ≠ D [1, 1] ∧ G [1, 1] ≠ D [1, 1] := by
  have h0 : 0 < n := by omega
  obtain ⟨F, hF⟩ := C67_eval_total (snake_ok (R := R) n h0).1
  obtain ⟨G, hG⟩ := C67_eval_total (snake_ok (R := R) n h0).2
  obtain ⟨D, hD⟩ := C67_eval_total (EvalOK.ofId (R := R) [n])
  have := eval_snakes n h0 hF hG 1 1 (by omega) (by omega)
  have hd : D [1, 1] = 1 := by
    have := C67_eval_id [n] hD [1] [1] (.one (by omega)) (.one (by omega))
    simpa using this
  refine ⟨F, G, D, hF, hG, hD, ?_, ?_⟩
  · rw [this.1, hd, if_neg (by omega)]; exact hR.symm
  · rw [this.2, hd, if_neg (by omega)]; exact hR.symm

/-- **C53 (finding).** A box whose data is given as a flat list evaluates, but its conjugate raises: `_conjugate_array` permutes the axes of the data
before they are reshaped. -/
theorem C53_refuted_flat_data :
    let b : TBox ℤ := .gen "f" [2] [2] (some ⟨[4], [1, 2, 3, 4]⟩) 0
    (∃ F, tensorEval (ofBox b) = .ok F) ∧ tensorEval (ofBox (b.rotate 1)) = .error .valueError := by
  refine ⟨C67_eval_total (EvalOK.ofBox ⟨_, rfl, rfl, fun _ => rfl, by simp⟩), by rfl⟩

end Lambeq
