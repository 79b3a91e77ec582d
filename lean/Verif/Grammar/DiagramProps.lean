import Verif.Grammar.Diagram

/-!
# Categorical laws of diagrams: C05, C06, C09, C10 and the generic part of C04, C07
-/

namespace Lambeq
set_option linter.unusedSimpArgs false
set_option linter.unusedSectionVars false

variable {O B : Type} [BoxSig B O]

namespace Layer

@[simp] theorem extend_dom (a b : List O) (l : Layer O B) : (l.extend a b).dom = a ++ l.dom ++ b := by
  simp [extend, dom]
@[simp] theorem extend_cod (a b : List O) (l : Layer O B) : (l.extend a b).cod = a ++ l.cod ++ b := by
  simp [extend, cod]
theorem extend_extend (a b a' b' : List O) (l : Layer O B) :
    (l.extend a b).extend a' b' = l.extend (a' ++ a) (b ++ b') := by
  simp [extend]
@[simp] theorem extend_comp (a b a' b' : List O) :
    (extend a' b' : Layer O B → Layer O B) ∘ extend a b = extend (a' ++ a) (b ++ b') := by
  funext l; simp [extend_extend]
@[simp] theorem extend_nil (l : Layer O B) : l.extend [] [] = l := by simp [extend]
@[simp] theorem extend_box (a b : List O) (l : Layer O B) : (l.extend a b).box = l.box := rfl
@[simp] theorem extend_left (a b : List O) (l : Layer O B) : (l.extend a b).left = a ++ l.left := rfl
@[simp] theorem extend_right (a b : List O) (l : Layer O B) : (l.extend a b).right = l.right ++ b := rfl

end Layer

namespace Diagram

/-! ### Chains -/

theorem Chain.append {a b c : List O} {l1 l2 : List (Layer O B)}
    (h1 : Chain a l1 b) (h2 : Chain b l2 c) : Chain a (l1 ++ l2) c := by
  induction l1 generalizing a with
  | nil => cases h1; exact h2
  | cons x xs ih => exact ⟨h1.1, ih h1.2⟩

theorem chain_append_iff {a c : List O} {l1 l2 : List (Layer O B)} :
    Chain a (l1 ++ l2) c ↔ ∃ b, Chain a l1 b ∧ Chain b l2 c := by
  constructor
  · intro h
    induction l1 generalizing a with
    | nil => exact ⟨a, rfl, h⟩
    | cons x xs ih =>
      obtain ⟨b, hb, hc⟩ := ih h.2
      exact ⟨b, ⟨h.1, hb⟩, hc⟩
  · rintro ⟨b, h1, h2⟩; exact h1.append h2

theorem Chain.extend {a c : List O} {ls : List (Layer O B)} (x y : List O) (h : Chain a ls c) :
    Chain (x ++ a ++ y) (ls.map (Layer.extend x y)) (x ++ c ++ y) := by
  induction ls generalizing a with
  | nil => cases h; rfl
  | cons l ls ih =>
    refine ⟨?_, ?_⟩
    · simp [h.1]
    · simpa using ih h.2

theorem Chain.unique {a c c' : List O} {ls : List (Layer O B)} (h : Chain a ls c)
    (h' : Chain a ls c') : c = c' := by
  induction ls generalizing a with
  | nil => cases h; cases h'; rfl
  | cons l ls ih => exact ih h.2 h'.2

theorem Chain.unique_left {a a' c : List O} {ls : List (Layer O B)} (hne : ls ≠ []) (h : Chain a ls c)
    (h' : Chain a' ls c) : a = a' := by
  cases ls with
  | nil => exact absurd rfl hne
  | cons l ls => rw [← h.1, ← h'.1]

/-! ### tensor -/

theorem tensor_dom (f g : Diagram O B) : (tensor f g).dom = f.dom ++ g.dom := by
  simp [tensor, tensorN]

theorem tensor_cod (f g : Diagram O B) : (tensor f g).cod = f.cod ++ g.cod := by
  simp [tensor, tensorN, tensorStep]

theorem tensor_layers (f g : Diagram O B) : (tensor f g).layers =
    f.layers.map (Layer.extend [] g.dom) ++ g.layers.map (Layer.extend f.cod []) := by
  simp [tensor, tensorN, tensorStep, List.drop_eq_nil_of_le]

theorem tensor_eq (f g : Diagram O B) : tensor f g = ⟨f.dom ++ g.dom, f.cod ++ g.cod,
    f.layers.map (Layer.extend [] g.dom) ++ g.layers.map (Layer.extend f.cod [])⟩ := by
  ext1
  · exact tensor_dom f g
  · exact tensor_cod f g
  · exact tensor_layers f g

theorem WT.tensor {f g : Diagram O B} (hf : f.WT) (hg : g.WT) : (tensor f g).WT := by
  unfold WT at *
  rw [tensor_eq]
  refine Chain.append (b := f.cod ++ g.dom) ?_ ?_
  · simpa using hf.extend [] g.dom
  · simpa using hg.extend f.cod []

theorem WT.id (t : List O) : (id t : Diagram O B).WT := rfl

theorem WT.ofBox (b : B) : (ofBox b : Diagram O B).WT := by
  refine ⟨?_, ?_⟩
  · simp [Layer.dom, Diagram.ofBox]
  · simp [Layer.cod, Diagram.ofBox, Chain]

theorem map_extend_extend (a b a' b' : List O) (ls : List (Layer O B)) :
    (ls.map (Layer.extend a b)).map (Layer.extend a' b') = ls.map (Layer.extend (a' ++ a) (b ++ b')) := by
  rw [List.map_map]; apply List.map_congr_left; intro l _; simp [Layer.extend_extend]

theorem map_extend_nil (ls : List (Layer O B)) : ls.map (Layer.extend [] []) = ls := by
  induction ls with
  | nil => rfl
  | cons a t ih => simp [ih]

theorem tensor_assoc (f g h : Diagram O B) : tensor (tensor f g) h = tensor f (tensor g h) := by
  simp only [tensor_eq, List.map_append, map_extend_extend, List.append_assoc, List.nil_append,
    List.append_nil]

theorem tensor_id_nil_left (f : Diagram O B) : tensor (id []) f = f := by
  simp [tensor_eq, id, map_extend_nil]

theorem tensor_id_nil_right (f : Diagram O B) : tensor f (id []) = f := by
  simp [tensor_eq, id, map_extend_nil]

theorem id_tensor_id (a b : List O) : tensor (id a : Diagram O B) (id b) = id (a ++ b) := by
  simp [tensor_eq, id]

/-- The loop of `tensor` from an arbitrary state. -/
theorem tensorLoop (ds : List (Diagram O B)) (L : List O) (R : List O) (ls : List (Layer O B)) :
    ds.foldl tensorStep (L, (ds.map (·.dom)).flatten ++ R, ls) =
      (L ++ (ds.foldr tensor (id [])).cod, R,
       ls ++ (ds.foldr tensor (id [])).layers.map (Layer.extend L R)) := by
  induction ds generalizing L ls with
  | nil => simp [id]
  | cons d ds ih =>
    have hd : (ds.map (·.dom)).flatten = (ds.foldr tensor (id [])).dom := by
      clear ih
      induction ds with
      | nil => rfl
      | cons e es ih => simp [tensor_dom, ih]
    simp only [List.foldl_cons, List.map_cons, List.flatten_cons, tensorStep, List.foldr_cons]
    rw [show (d.dom ++ (ds.map (·.dom)).flatten ++ R).drop d.dom.length
        = (ds.map (·.dom)).flatten ++ R by simp [List.append_assoc]]
    rw [ih]
    simp [tensor_eq, hd, map_extend_extend]

/-- n-ary tensor is iterated binary tensor (grammar.py:964-980). -/
theorem tensorN_eq_foldr (ds : List (Diagram O B)) : tensorN ds = ds.foldr tensor (id []) := by
  have h := tensorLoop ds [] [] []
  simp only [List.append_nil, List.nil_append] at h
  have hd : (ds.map (·.dom)).flatten = (ds.foldr tensor (id [])).dom := by
    clear h
    induction ds with
    | nil => rfl
    | cons e es ih => simp [tensor_dom, ih]
  ext1
  · exact hd
  · simp only [tensorN]; rw [h]
  · simp only [tensorN]; rw [h, map_extend_nil]

/-! ### composition -/

variable [DecidableEq O]

theorem andThen_ok_iff {f g r : Diagram O B} :
    andThen f g = .ok r ↔ f.cod = g.dom ∧ r = ⟨f.dom, g.cod, f.layers ++ g.layers⟩ := by
  unfold andThen thenN thenLoop
  by_cases h : g.dom = f.cod
  · simp only [h, ne_eq, not_true, if_false, thenLoop]
    constructor
    · intro hh; cases hh; simp
    · rintro ⟨_, rfl⟩; rfl
  · simp only [ne_eq, h, not_false_iff, if_true]
    constructor
    · intro hh; cases hh
    · rintro ⟨h', _⟩; exact absurd h'.symm h

theorem andThen_eq_ok {f g : Diagram O B} (h : f.cod = g.dom) :
    andThen f g = .ok ⟨f.dom, g.cod, f.layers ++ g.layers⟩ := andThen_ok_iff.2 ⟨h, rfl⟩

theorem andThen_error_iff {f g : Diagram O B} :
    andThen f g = .error .valueError ↔ f.cod ≠ g.dom := by
  unfold andThen thenN thenLoop
  by_cases h : g.dom = f.cod
  · simp [h, thenLoop]
  · simp [h]; exact fun h' => h h'.symm

theorem WT.andThen {f g r : Diagram O B} (hf : f.WT) (hg : g.WT) (h : andThen f g = .ok r) : r.WT := by
  obtain ⟨h1, rfl⟩ := andThen_ok_iff.1 h
  unfold WT at *
  exact hf.append (h1 ▸ hg)

/-- `thenN` is iterated composition. -/
theorem thenN_cons (f g : Diagram O B) (ds : List (Diagram O B)) :
    thenN f (g :: ds) = (andThen f g).bind (fun r => thenN r ds) := by
  by_cases h : f.cod = g.dom
  · rw [andThen_eq_ok h]
    simp [thenN, thenLoop, h, Except.bind]
  · rw [andThen_error_iff.2 h]
    have : ¬ g.dom = f.cod := fun h' => h h'.symm
    simp [thenN, thenLoop, this, Except.bind]

theorem thenAt_ok_iff {f g r : Diagram O B} {i : Nat} :
    thenAt f g i = .ok r ↔
      f.cod = f.cod.take i ++ g.dom ++ f.cod.drop (i + g.dom.length) ∧
      r = ⟨f.dom, f.cod.take i ++ g.cod ++ f.cod.drop (i + g.dom.length),
           f.layers ++ g.layers.map (Layer.extend (f.cod.take i) (f.cod.drop (i + g.dom.length)))⟩ := by
  unfold thenAt
  rw [pySlice_nat_to, show ((i : Int) + (g.dom.length : Int)) = ((i + g.dom.length : Nat) : Int) by
    omega, pySlice_nat_from, andThen_ok_iff]
  simp [tensor_eq, id, map_extend_extend]

end Diagram

/-! ## Headline theorems -/

open Diagram

/-- **C05** `f >> g` raises `ValueError` exactly when the types do not match; otherwise the result
goes from `f.dom` to `g.cod`. -/
theorem C05_compose_defined [DecidableEq O] (f g : Diagram O B) :
    (f.cod ≠ g.dom → andThen f g = .error .valueError)
    ∧ (f.cod = g.dom → ∃ r, andThen f g = .ok r ∧ r.dom = f.dom ∧ r.cod = g.cod
        ∧ r.boxes = f.boxes ++ g.boxes) := by
  refine ⟨andThen_error_iff.2, fun h => ⟨_, andThen_eq_ok h, rfl, rfl, by simp [boxes]⟩⟩

/-- **C05** Composition is associative (including which compositions raise) and identities are
neutral. -/
theorem C05_category_laws [DecidableEq O] (f g h : Diagram O B) :
    ((andThen f g).bind (fun r => andThen r h) = (andThen g h).bind (fun r => andThen f r))
    ∧ andThen (id f.dom) f = .ok f ∧ andThen f (id f.cod) = .ok f := by
  refine ⟨?_, ?_, ?_⟩
  · by_cases h1 : f.cod = g.dom
    · by_cases h2 : g.cod = h.dom
      · rw [andThen_eq_ok h1, andThen_eq_ok h2]
        simp only [Except.bind]
        rw [andThen_eq_ok (by exact h2), andThen_eq_ok (by exact h1)]
        simp
      · rw [andThen_eq_ok h1, andThen_error_iff.2 h2]
        simp only [Except.bind]
        rw [andThen_error_iff.2 (by exact h2)]
    · rw [andThen_error_iff.2 h1]
      by_cases h2 : g.cod = h.dom
      · rw [andThen_eq_ok h2]
        simp only [Except.bind]
        rw [andThen_error_iff.2 (by exact h1)]
      · rw [andThen_error_iff.2 h2]; rfl
  · rw [andThen_eq_ok rfl]; simp [Diagram.id]
  · rw [andThen_eq_ok rfl]; simp [Diagram.id]

/-- **C06** The tensor product is strictly associative and unital, acts on types by `@`, and equals
its two sequentialisation `f @ id >> id @ g`. -/
theorem C06_monoidal [DecidableEq O] (f g h : Diagram O B) :
    (tensor f g).dom = f.dom ++ g.dom ∧ (tensor f g).cod = f.cod ++ g.cod
    ∧ tensor (tensor f g) h = tensor f (tensor g h)
    ∧ tensor (id []) f = f ∧ tensor f (id []) = f
    ∧ andThen (tensor f (id g.dom)) (tensor (id f.cod) g) = .ok (tensor f g)
    ∧ (tensor f g).boxes = f.boxes ++ g.boxes := by
  refine ⟨tensor_dom f g, tensor_cod f g, tensor_assoc f g h, tensor_id_nil_left f,
    tensor_id_nil_right f, ?_, ?_⟩
  · rw [andThen_eq_ok (by simp [tensor_cod, tensor_dom, Diagram.id])]
    simp [tensor_eq, Diagram.id]
  · simp [boxes, tensor_layers, Function.comp_def]

/-- **C06** The n-ary `tensor` method is the iterated binary one, for any number of arguments. -/
theorem C06_nary (ds : List (Diagram O B)) :
    tensorN ds = ds.foldr tensor (id [])
    ∧ (tensorN ds).dom = (ds.map (·.dom)).flatten ∧ (tensorN ds).cod = (ds.map (·.cod)).flatten := by
  refine ⟨tensorN_eq_foldr ds, rfl, ?_⟩
  rw [tensorN_eq_foldr]
  induction ds with
  | nil => rfl
  | cons d ds ih => simp [tensor_cod, ih]

/-- **C06** Tensor is functorial in the first argument up to sequentialisation: whiskering by an
identity distributes over `>>`. -/
theorem C06_whisker [DecidableEq O] (f g : Diagram O B) (h : f.cod = g.dom) (a b : List O) :
    ∃ r s, andThen f g = .ok r
      ∧ andThen (tensor (tensor (id a) f) (id b)) (tensor (tensor (id a) g) (id b)) = .ok s
      ∧ tensor (tensor (id a) r) (id b) = s := by
  refine ⟨_, _, andThen_eq_ok h, andThen_eq_ok ?_, ?_⟩
  · simp [tensor_cod, tensor_dom, h, Diagram.id]
  · simp [tensor_eq, Diagram.id, map_extend_extend]

/-! ### C09, C10: slicing -/

namespace Diagram

theorem chain_head_last {a c : List O} {ls : List (Layer O B)} (h : Chain a ls c)
    {x y : Layer O B} (hx : ls.head? = some x) (hy : ls.getLast? = some y) :
    x.dom = a ∧ y.cod = c := by
  induction ls generalizing a x with
  | nil => simp at hx
  | cons l ls ih =>
    simp at hx; subst hx
    refine ⟨h.1, ?_⟩
    cases ls with
    | nil => simp at hy; subst hy; exact h.2
    | cons m ms => exact (ih h.2 (x := m) rfl (by simpa using hy)).2

/-- The type of the wires after the first `k` layers (specification of slicing). -/
def tyAt (d : Diagram O B) : Nat → List O
  | 0 => d.dom
  | k + 1 => match d.layers[k]? with
    | some l => l.cod
    | none => d.cod

theorem chain_split (d : Diagram O B) (h : d.WT) (k : Nat) :
    Chain d.dom (d.layers.take k) (d.tyAt k) ∧ Chain (d.tyAt k) (d.layers.drop k) d.cod := by
  have h' : Chain d.dom (d.layers.take k ++ d.layers.drop k) d.cod := by
    rw [List.take_append_drop]; exact h
  obtain ⟨b, hb, hc⟩ := chain_append_iff.1 h'
  have : b = d.tyAt k := by
    cases k with
    | zero => simp at hb; exact hb.symm
    | succ k =>
      simp only [tyAt]
      by_cases hk : k < d.layers.length
      · rw [List.getElem?_eq_getElem hk]
        simp only
        rw [List.take_succ_eq_append_getElem hk] at hb
        obtain ⟨b', _, hb2⟩ := chain_append_iff.1 hb
        exact hb2.2.symm
      · rw [List.getElem?_eq_none (by omega)]
        simp only
        rw [List.drop_eq_nil_of_le (by omega)] at hc
        exact hc
  rw [← this]; exact ⟨hb, hc⟩

theorem chain_sub (d : Diagram O B) (h : d.WT) (i j : Nat) (hij : i ≤ j) :
    Chain (d.tyAt i) ((d.layers.drop i).take (j - i)) (d.tyAt j) := by
  have h1 := (chain_split d h j).1
  have h2 : d.layers.take j = d.layers.take i ++ (d.layers.drop i).take (j - i) := by
    rw [← List.take_add]; congr 1; omega
  rw [h2] at h1
  obtain ⟨b, hb, hc⟩ := chain_append_iff.1 h1
  rw [hb.unique (chain_split d h i).1] at hc
  exact hc

theorem slice_from_to (d : Diagram O B) (h : d.WT) (i j : Nat) (hi : i ≤ d.layers.length)
    (hij : i ≤ j) (hj : j ≤ d.layers.length) :
    d.slice (some i) (some j) = .ok ⟨d.tyAt i, d.tyAt j, (d.layers.drop i).take (j - i)⟩ := by
  unfold slice
  simp only [pySlice_nat_nat]
  have hc := chain_sub d h i j hij
  rcases hl : ((d.layers.drop i).take (j - i)) with _ | ⟨x, xs⟩
  · have hji : j = i := by
      have := congrArg List.length hl
      simp at this; omega
    subst hji
    simp only [List.head?_nil, List.getLast?_nil]
    by_cases hz : j = d.layers.length
    · have h3 := (chain_split d h j).2
      rw [List.drop_eq_nil_of_le (by omega)] at h3
      simp [hz, id]
      rw [← hz]; exact h3.symm
    · have hlt : j < d.layers.length := by omega
      have hn : 0 < d.layers.length := by omega
      simp only [Option.getD_some]
      rw [if_neg (by omega)]
      rw [if_neg (by omega)]
      have hg : pyGet d.layers (j : Int) = .ok d.layers[j] := by
        unfold pyGet
        simp [show ¬ ((j : Int) < 0) by omega, hlt]
      rw [hg]
      have h3 := (chain_split d h j).2
      rw [List.drop_eq_getElem_cons hlt] at h3
      simp [id, h3.1]
  · obtain ⟨z, hz⟩ : ∃ z, (x :: xs).getLast? = some z := ⟨_, List.getLast?_eq_some_getLast (by simp)⟩
    rw [hl] at hc
    have := chain_head_last hc rfl hz
    simp only [List.head?_cons, hz]
    rw [this.1, this.2]

theorem slice_none_start (d : Diagram O B) (e : Option Int) :
    d.slice none e = d.slice (some (0 : Nat)) e := by
  unfold slice pySlice clampIdx
  simp

theorem slice_none_stop (d : Diagram O B) (s : Option Int) :
    d.slice s none = d.slice s (some (d.layers.length : Nat)) := by
  unfold slice pySlice clampIdx
  simp [show ¬ ((d.layers.length : Int) < 0) by omega]

end Diagram

/-- **C09** Forward slicing of a well-typed diagram: `d[i:j]` is well typed, has exactly the layers
`i..j-1`, and the two halves `d[:k]`, `d[k:]` compose back to `d`. -/
theorem C09_slices [DecidableEq O] (d : Diagram O B) (h : d.WT) :
    (∀ i j : Nat, i ≤ j → j ≤ d.layers.length →
      ∃ r, d.slice (some i) (some j) = .ok r ∧ r.WT ∧ r.layers = (d.layers.drop i).take (j - i))
    ∧ (∀ k : Nat, k ≤ d.layers.length →
      ∃ a b, d.slice none (some k) = .ok a ∧ d.slice (some k) none = .ok b ∧ andThen a b = .ok d) := by
  refine ⟨fun i j hij hj => ⟨_, slice_from_to d h i j (by omega) hij hj, ?_, rfl⟩, fun k hk => ?_⟩
  · exact chain_sub d h i j hij
  · have h1 := slice_from_to d h 0 k (by omega) (by omega) hk
    have h2 := slice_from_to d h k d.layers.length hk hk (by omega)
    refine ⟨_, _, by rw [slice_none_start]; exact h1, by rw [slice_none_stop]; exact h2, ?_⟩
    rw [andThen_eq_ok rfl]
    have h3 := (chain_split d h d.layers.length).2
    rw [List.drop_eq_nil_of_le (by omega)] at h3
    have h4 : d.tyAt d.layers.length = d.cod := h3
    rw [h4]
    have : (d.layers.drop k).take (d.layers.length - k) = d.layers.drop k := by
      rw [List.take_of_length_le]; simp
    simp [this, tyAt]

/-- **C09** Integer indexing: in range it is the corresponding one-layer diagram (negative indices
count from the end), out of range it raises `IndexError`. -/
theorem C09_getInt (d : Diagram O B) (h : d.WT) (key : Int) :
    (0 ≤ key ∧ key < d.layers.length → ∃ l, d.layers[key.toNat]? = some l
        ∧ d.getInt key = .ok ⟨l.dom, l.cod, [l]⟩)
    ∧ (-(d.layers.length : Int) ≤ key ∧ key < 0 →
        d.getInt key = d.getInt (d.layers.length + key))
    ∧ (¬ (-(d.layers.length : Int) ≤ key ∧ key < d.layers.length) →
        d.getInt key = .error .indexError) := by
  refine ⟨?_, ?_, ?_⟩
  · rintro ⟨h0, h1⟩
    obtain ⟨k, rfl⟩ := Int.eq_ofNat_of_zero_le h0
    have hk : k < d.layers.length := by omega
    refine ⟨d.layers[k], by simp [hk], ?_⟩
    unfold Diagram.getInt
    rw [if_neg (by omega)]
    simp only [show ¬ ((k : Int) < 0) by omega, if_false]
    rw [show ((k : Int) + 1) = ((k + 1 : Nat) : Int) by omega,
      slice_from_to d h k (k + 1) (by omega) (by omega) (by omega)]
    have hc := chain_sub d h k (k + 1) (by omega)
    have hl : (d.layers.drop k).take (k + 1 - k) = [d.layers[k]] := by
      rw [List.drop_eq_getElem_cons hk, show k + 1 - k = 1 by omega]; rfl
    rw [hl] at hc ⊢
    rw [← hc.1, ← hc.2]
  · rintro ⟨h0, h1⟩
    unfold Diagram.getInt
    simp only [h1, if_true, show ¬ ((d.layers.length : Int) + key < 0) by omega, if_false]
    rw [if_neg (by omega), if_neg (by omega)]
  · intro hk
    unfold Diagram.getInt
    rw [if_pos (by omega)]

/-- **C10** (full reverse) `d[::-1]` is the dagger, for every well-typed diagram. -/
theorem C10_full_reverse_partial (bdag : B → B) (d : Diagram O B) (h : d.WT) :
    d.sliceRevWith bdag none none = d.daggerWith bdag := by
  unfold sliceRevWith daggerWith pySliceRev
  cases hl : d.layers with
  | nil =>
    have : d.dom = d.cod := by have h' := h; unfold WT at h'; rw [hl] at h'; exact h'
    ext1 <;> simp [hl, this]
  | cons a t =>
    simp

end Lambeq
