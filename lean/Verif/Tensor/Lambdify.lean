import Verif.Tensor.Adjoint

/-!
# Substituting values for symbols (C69)

Models `lambeq/backend/symbol.py` (`Symbol`, 21-87; `lambdify`, 89-111) and `lambeq/backend/tensor.py`: `Box.free_symbols` (239-254),
`Box.lambdify` (256-283), `Diagram.lambdify` (312-328), `Diagram.free_symbols` (330-332), `Daggered.lambdify` (610-612). The data of a box are an array, `None` or a
symbol; object arrays of symbols are not modelled.
-/

namespace Lambeq
open Diagram
set_option linter.unusedSectionVars false
set_option linter.unusedSimpArgs false

/-- `Symbol`, symbol.py:20-44. -/
structure Sym (R : Type) where
  name : String
  directedDom : Nat
  directedCod : Nat
  scale : R
  deriving DecidableEq

/-- `Symbol.unscaled`, symbol.py:52-54. -/
def Sym.unscaled {R : Type} [One R] (s : Sym R) : Sym R := ⟨s.name, s.directedDom, s.directedCod, 1⟩

/-- `Box.data`. -/
inductive SData (R : Type)
  | value (a : Option (NdArray R))
  | symbol (s : Sym R)
  deriving DecidableEq

/-- Boxes of the tensor category with symbolic data; `lit` are the cups, caps, swaps and spiders, which have no symbols. -/
inductive SBox (R : Type)
  | gen (name : String) (dom cod : List Nat) (data : SData R) (z : Int)
  | lit (b : TBox R)
  | daggered (b : SBox R)
  deriving DecidableEq

namespace SBox
variable {R : Type}

/-- Domain and codomain, as for `TBox`: tensor.py:164-165, 600-601. -/
def sig : SBox R → List Nat × List Nat
  | gen _ d c _ _ => (d, c)
  | lit b => b.sig
  | daggered b => (b.sig.2, b.sig.1)

instance : BoxSig (SBox R) Nat := ⟨fun b => b.sig.1, fun b => b.sig.2⟩

/-- `dagger`: tensor.py:207-217, and as for `TBox`. -/
def dagger : SBox R → SBox R
  | gen n d c s z => daggered (gen n d c s z)
  | lit b => lit b.dagger
  | daggered b => b

/-- `rotate`: tensor.py:219-237, and as for `TBox`. -/
def rotate (z : Int) : SBox R → SBox R
  | gen n d c s z0 => gen n (rotDim z d) (rotDim z c) s ((z0 + z) % 2)
  | lit b => lit (b.rotate z)
  | daggered b => daggered (b.rotate z)

/-- The box as a box with concrete data, if it has no symbol. -/
def concrete : SBox R → Option (TBox R)
  | gen n d c (.value a) z => some (.gen n d c a z)
  | gen _ _ _ (.symbol _) _ => none
  | lit b => some b
  | daggered b => match b.concrete with
    | some b => some (.daggered b)
    | none => none

variable [CommSemiring R] [StarRing R] [Inhabited R] [DecidableEq R]

/-- `Box.free_symbols`, tensor.py:239-254 (as a list). -/
def freeSymbols : SBox R → List (Sym R)
  | gen _ _ _ (.symbol s) _ => [s.unscaled]
  | gen _ _ _ (.value _) _ => []
  | lit _ => []
  | daggered b => b.freeSymbols

/-- `symbol.lambdify(symbols, expr)(*xs)`, symbol.py:89-111. Multiplying an array by a scalar multiplies all entries. -/
def lambdifyData (symbols : List (Sym R)) (e : SData R) (xs : List (NdArray R)) : Except PyErr (SData R) :=
  match e with
  | .value a => .ok (.value a)
  | .symbol s =>
    match symbols.findIdx? (fun t => decide (t = s.unscaled)) with
    | none => .error .valueError
    | some i => match xs[i]? with
      | none => .error .indexError
      | some v => .ok (.value (some (if s.scale ≠ 1 then ⟨v.shape, v.flat.map (s.scale * ·)⟩ else v)))

/-- `box.lambdify(*symbols)(*xs)`, tensor.py:256-283 and 610-612. The constructor of `Box` is called without `z`, which is then 0. -/
def lambdify (symbols : List (Sym R)) : SBox R → List (NdArray R) → Except PyErr (SBox R)
  | gen n d c e z, xs =>
    if symbols.any (fun x => decide (x ∈ (gen n d c e z : SBox R).freeSymbols)) then
      match lambdifyData symbols e xs with
      | .error err => .error err
      | .ok v => .ok (gen n d c v 0)
    else .ok (gen n d c e z)
  | lit b, _ => .ok (lit b)
  | daggered b, xs => match b.lambdify symbols xs with
    | .error err => .error err
    | .ok b => .ok b.dagger

/-- `diagram.lambdify(*symbols)(*xs)`, tensor.py:312-328: the layers. -/
def lambdifyLayers (symbols : List (Sym R)) (xs : List (NdArray R)) : List (Layer Nat (SBox R)) → Except PyErr (List (Layer Nat (SBox R)))
  | [] => .ok []
  | l :: ls => match l.box.lambdify symbols xs with
    | .error err => .error err
    | .ok b => match lambdifyLayers symbols xs ls with
      | .error err => .error err
      | .ok ls => .ok (⟨l.left, b, l.right⟩ :: ls)

/-- `diagram.lambdify(*symbols)(*xs)`, tensor.py:312-328. -/
def lambdifyDiag (symbols : List (Sym R)) (xs : List (NdArray R)) (d : Diagram Nat (SBox R)) : Except PyErr (Diagram Nat (SBox R)) :=
  match lambdifyLayers symbols xs d.layers with
  | .error err => .error err
  | .ok ls => .ok ⟨d.dom, d.cod, ls⟩

/-! ## Specification: substitution -/

/-- Replace the symbols by the values `ρ` gives them (`none`: leave the symbol alone), times their scale. Nothing else changes. -/
def subst (ρ : Sym R → Option (NdArray R)) : SBox R → SBox R
  | gen n d c (.symbol s) z => match ρ s.unscaled with
    | some v => gen n d c (.value (some ⟨v.shape, v.flat.map (s.scale * ·)⟩)) z
    | none => gen n d c (.symbol s) z
  | gen n d c (.value a) z => gen n d c (.value a) z
  | lit b => lit b
  | daggered b => daggered (b.subst ρ)

/-- The substitution that gives each listed symbol its value. -/
def env (symbols : List (Sym R)) (xs : List (NdArray R)) (s : Sym R) : Option (NdArray R) :=
  ((symbols.zip xs).find? (fun p => decide (p.1 = s))).map (·.2)

/-- No symbolic box is rotated; daggers are of plain boxes (as `dagger` builds them). -/
def Upright : SBox R → Prop
  | gen _ _ _ (.symbol _) z => z = 0
  | gen _ _ _ (.value _) _ => True
  | lit _ => True
  | daggered (gen _ _ _ (.symbol _) z) => z = 0
  | daggered (gen _ _ _ (.value _) _) => True
  | daggered _ => False

theorem env_spec (symbols : List (Sym R)) (xs : List (NdArray R)) (hl : symbols.length = xs.length) (s : Sym R) :
    match symbols.findIdx? (fun t => decide (t = s)) with
    | none => env symbols xs s = none ∧ s ∉ symbols
    | some i => s ∈ symbols ∧ ∃ v, xs[i]? = some v ∧ env symbols xs s = some v := by
  induction symbols generalizing xs with
  | nil => simp [env]
  | cons t ts ih =>
    cases xs with
    | nil => simp at hl
    | cons x xs =>
      have ih := ih xs (by simpa using hl)
      rw [List.findIdx?_cons]
      by_cases h : t = s
      · subst h; simp [env]
      · have e : env (t :: ts) (x :: xs) s = env ts xs s := by simp [env, h]
        rw [e]
        simp only [h, decide_false]
        cases hf : ts.findIdx? (fun t => decide (t = s)) with
        | none =>
          rw [hf] at ih
          exact ⟨ih.1, by simpa using ⟨fun e => h e.symm, ih.2⟩⟩
        | some i =>
          rw [hf] at ih
          obtain ⟨h1, v, h2, h3⟩ := ih
          exact ⟨List.mem_cons_of_mem _ h1, v, h2, h3⟩

theorem map_one_mul (v : NdArray R) : (⟨v.shape, v.flat.map ((1 : R) * ·)⟩ : NdArray R) = v := by
  simp

theorem lambdify_eq_subst (symbols : List (Sym R)) (xs : List (NdArray R)) (hl : symbols.length = xs.length) {b : SBox R} (h : b.Upright) :
    b.lambdify symbols xs = .ok (b.subst (env symbols xs)) := by
  have hgen : ∀ n d c s, (gen n d c (.symbol s) 0 : SBox R).lambdify symbols xs = .ok ((gen n d c (.symbol s) 0).subst (env symbols xs)) := by
    intro n d c s
    have := env_spec symbols xs hl s.unscaled
    unfold lambdify
    have hany : symbols.any (fun x => decide (x ∈ (gen n d c (.symbol s) 0 : SBox R).freeSymbols)) = decide (s.unscaled ∈ symbols) := by
      rw [Bool.eq_iff_iff]
      simp [freeSymbols]
    rw [hany]
    simp only [subst, lambdifyData]
    cases hf : symbols.findIdx? (fun t => decide (t = s.unscaled)) with
    | none =>
      rw [hf] at this
      simp [this.1, this.2]
    | some i =>
      rw [hf] at this
      obtain ⟨h1, v, h2, h3⟩ := this
      simp only [h1, decide_true, if_true, h2, h3]
      by_cases hs : s.scale = 1
      · simp [hs]
      · simp [hs]
  have hval : ∀ n d c a z, (gen n d c (.value a) z : SBox R).lambdify symbols xs = .ok (gen n d c (.value a) z) := by
    intro n d c a z
    simp [lambdify, freeSymbols]
  cases b with
  | gen n d c e z =>
    cases e with
    | value a => exact hval n d c a z
    | symbol s =>
      obtain rfl : z = 0 := h
      exact hgen n d c s
  | lit b => rfl
  | daggered b =>
    cases b with
    | gen n d c e z =>
      have hd : ∀ b' : SBox R, (gen n d c e z : SBox R).lambdify symbols xs = .ok b' → (∃ n d c e z, b' = gen n d c e z) →
          (daggered (gen n d c e z) : SBox R).lambdify symbols xs = .ok (daggered b') := by
        rintro b' hb' ⟨n', d', c', e', z', rfl⟩
        rw [lambdify, hb']; rfl
      cases e with
      | value a => exact hd _ (hval n d c a z) ⟨_, _, _, _, _, rfl⟩
      | symbol s =>
        obtain rfl : z = 0 := h
        refine hd _ (hgen n d c s) ?_
        simp only [subst]
        split <;> exact ⟨_, _, _, _, _, rfl⟩
    | lit b => exact h.elim
    | daggered b => exact h.elim

end SBox

variable {R : Type} [CommSemiring R] [StarRing R] [Inhabited R] [DecidableEq R]

/-- The diagram with every box substituted. -/
def substDiag (ρ : Sym R → Option (NdArray R)) (d : Diagram Nat (SBox R)) : Diagram Nat (SBox R) :=
  ⟨d.dom, d.cod, d.layers.map (fun l => ⟨l.left, l.box.subst ρ, l.right⟩)⟩

/-- **C69.** For every diagram without rotated symbolic boxes, `diagram.lambdify(*symbols)(*values)` does not raise, and is the diagram with each
listed symbol replaced by its value times its scale, and nothing else changed. -/
theorem C69_lambdify_partial (symbols : List (Sym R)) (xs : List (NdArray R)) (hl : symbols.length = xs.length) (d : Diagram Nat (SBox R))
    (h : ∀ l ∈ d.layers, l.box.Upright) : SBox.lambdifyDiag symbols xs d = .ok (substDiag (SBox.env symbols xs) d) := by
  have : ∀ ls : List (Layer Nat (SBox R)), (∀ l ∈ ls, l.box.Upright) →
      SBox.lambdifyLayers symbols xs ls = .ok (ls.map (fun l => ⟨l.left, l.box.subst (SBox.env symbols xs), l.right⟩)) := by
    intro ls
    induction ls with
    | nil => intro _; rfl
    | cons l ls ih =>
      intro h
      simp only [SBox.lambdifyLayers, SBox.lambdify_eq_subst symbols xs hl (h l (by simp)), ih (fun l hl => h l (List.mem_cons_of_mem _ hl)), List.map_cons]
  simp only [SBox.lambdifyDiag, this d.layers h]
  rfl

/-- **C69 (values).** What a symbol is replaced by: the value at its position, if the symbols are distinct; unlisted symbols stay. -/
theorem C69_env (symbols : List (Sym R)) (xs : List (NdArray R)) (hl : symbols.length = xs.length) (hn : symbols.Nodup) :
    (∀ i (h : i < symbols.length), SBox.env symbols xs symbols[i] = xs[i]?) ∧ (∀ s, s ∉ symbols → SBox.env symbols xs s = none) := by
  constructor
  · intro i h
    have := SBox.env_spec symbols xs hl symbols[i]
    cases hf : symbols.findIdx? (fun t => decide (t = symbols[i])) with
    | none => rw [hf] at this; exact absurd (List.getElem_mem h) this.2
    | some j =>
      rw [hf] at this
      obtain ⟨_, v, h2, h3⟩ := this
      obtain ⟨hj, hj', _⟩ := List.findIdx?_eq_some_iff_getElem.1 hf
      have : symbols[j] = symbols[i] := by simpa using hj'
      have := (List.Nodup.getElem_inj_iff hn).1 this
      subst this
      rw [h3, h2]
  · intro s hs
    have := SBox.env_spec symbols xs hl s
    cases hf : symbols.findIdx? (fun t => decide (t = s)) with
    | none => rw [hf] at this; exact this.1
    | some j => rw [hf] at this; exact absurd this.1 hs

/-- **C69 (free symbols).** The free symbols of the result are those of the diagram that are not listed. -/
theorem C69_free_symbols (symbols : List (Sym R)) (xs : List (NdArray R)) (hl : symbols.length = xs.length) (d : Diagram Nat (SBox R))
    (h : ∀ l ∈ d.layers, l.box.Upright) {d' : Diagram Nat (SBox R)} (hd : SBox.lambdifyDiag symbols xs d = .ok d') (s : Sym R) :
    (∃ l ∈ d'.layers, s ∈ l.box.freeSymbols) ↔ (∃ l ∈ d.layers, s ∈ l.box.freeSymbols) ∧ s ∉ symbols := by
  rw [C69_lambdify_partial symbols xs hl d h] at hd
  cases hd
  have hbox : ∀ b : SBox R, (s ∈ (b.subst (SBox.env symbols xs)).freeSymbols ↔ s ∈ b.freeSymbols ∧ s ∉ symbols) := by
    intro b
    induction b with
    | gen n d c e z =>
      cases e with
      | value a => simp [SBox.subst, SBox.freeSymbols]
      | symbol t =>
        have := SBox.env_spec symbols xs hl t.unscaled
        simp only [SBox.subst]
        cases hf : symbols.findIdx? (fun u => decide (u = t.unscaled)) with
        | none =>
          rw [hf] at this
          simp only [this.1, SBox.freeSymbols, List.mem_singleton]
          constructor
          · rintro rfl; exact ⟨rfl, this.2⟩
          · exact fun h => h.1
        | some i =>
          rw [hf] at this
          obtain ⟨h1, v, h2, h3⟩ := this
          simp only [h3, SBox.freeSymbols, List.mem_singleton, List.not_mem_nil, false_iff]
          rintro ⟨rfl, h⟩; exact h h1
    | lit b => simp [SBox.subst, SBox.freeSymbols]
    | daggered b ih => exact ih
  simp only [substDiag, List.mem_map]
  constructor
  · rintro ⟨_, ⟨l, hl, rfl⟩, hs⟩
    have := (hbox l.box).1 hs
    exact ⟨⟨l, hl, this.1⟩, this.2⟩
  · rintro ⟨⟨l, hl, h1⟩, h2⟩
    exact ⟨_, ⟨l, hl, rfl⟩, (hbox l.box).2 ⟨h1, h2⟩⟩

/-- **C69 (order).** The order in which the symbols are passed does not matter, as long as the values are passed in the same order. -/
theorem C69_order (ps qs : List (Sym R × NdArray R)) (hp : ps.Perm qs) (hn : (ps.map (·.1)).Nodup) (d : Diagram Nat (SBox R))
    (h : ∀ l ∈ d.layers, l.box.Upright) :
    SBox.lambdifyDiag (ps.map (·.1)) (ps.map (·.2)) d = SBox.lambdifyDiag (qs.map (·.1)) (qs.map (·.2)) d := by
  rw [C69_lambdify_partial _ _ (by simp) d h, C69_lambdify_partial _ _ (by simp) d h]
  have hn' : (qs.map (·.1)).Nodup := (hp.map _).nodup_iff.1 hn
  have hfind : ∀ (l : List (Sym R × NdArray R)), (l.map (·.1)).Nodup → ∀ s v, SBox.env (l.map (·.1)) (l.map (·.2)) s = some v ↔ (s, v) ∈ l := by
    intro l hl s v
    have hz : (l.map (·.1)).zip (l.map (·.2)) = l := by
      clear hl
      induction l with
      | nil => rfl
      | cons a l ih => simp [ih]
    rw [SBox.env, hz]
    clear hz
    induction l with
    | nil => simp
    | cons a l ih =>
      simp only [List.map_cons, List.nodup_cons] at hl
      by_cases h : a.1 = s
      · simp only [List.find?_cons, h, decide_true, Option.map_some, Option.some.injEq, List.mem_cons]
        constructor
        · rintro rfl; left; rw [← h]
        · rintro (rfl | hm)
          · rfl
          · exact absurd (List.mem_map.2 ⟨_, hm, h.symm⟩) hl.1
      · simp only [List.find?_cons, h, decide_false, List.mem_cons]
        refine (ih hl.2).trans ?_
        constructor
        · exact Or.inr
        · rintro (e | hm)
          · exact absurd (congrArg Prod.fst e).symm h
          · exact hm
  have : SBox.env (ps.map (·.1)) (ps.map (·.2)) = SBox.env (qs.map (·.1)) (qs.map (·.2)) := by
    funext s
    ext v
    simp only [hfind ps hn, hfind qs hn', hp.mem_iff]
  rw [this]

/-- **C69 (refuted).** A rotated symbolic box loses its rotation: with the value substituted before the rotation it is the conjugate, through `lambdify` it is not. Both can be evaluated
and have different values, because the constructor is called without the winding number. -/
theorem C69_refuted_rotated :
    let s : Sym ℤ := ⟨"w", 1, 4, 1⟩
    let a : NdArray ℤ := ⟨[2, 2], [1, 2, 3, 4]⟩
    let word : SBox ℤ := .gen "w" [] [2, 2] (.symbol s) 0
    ∃ t t' : TBox ℤ, (word.rotate 1).lambdify [s] [a] = .ok (.gen "w" [] [2, 2] (.value (some a)) 0) ∧
      (SBox.gen "w" [] [2, 2] (.value (some a)) 0).concrete = some t ∧ ((word.rotate 1).subst (SBox.env [s] [a])).concrete = some t' ∧
      ∃ F G : List Nat → ℤ, tensorEval (ofBox t) = .ok F ∧ tensorEval (ofBox t') = .ok G ∧ F [0, 1] = 2 ∧ G [0, 1] = 3 := by
  intro s a word
  refine ⟨.gen "w" [] [2, 2] (some a) 0, .gen "w" [] [2, 2] (some a) 1, by decide, rfl, ?_, ?_⟩
  · have e : (word.rotate 1).subst (SBox.env [s] [a]) = .gen "w" [] [2, 2] (.value (some a)) 1 := by decide
    rw [e]; rfl
  · have h1 : (TBox.gen "w" [] [2, 2] (some a) 0 : TBox ℤ).Concrete := .gen ⟨a, rfl, rfl, rfl⟩
    have h2 : (TBox.gen "w" [] [2, 2] (some a) 1 : TBox ℤ).Concrete := .gen ⟨a, rfl, rfl, rfl⟩
    obtain ⟨F, hF⟩ := C67_eval_total (EvalOK.ofBox h1.evaluable)
    obtain ⟨G, hG⟩ := C67_eval_total (EvalOK.ofBox h2.evaluable)
    refine ⟨F, G, hF, hG, ?_, ?_⟩
    · rw [show ([0, 1] : List Nat) = [] ++ [0, 1] from rfl,
        eval_ofBox h1.evaluable hF [] [0, 1] .nil (.two (by omega) (by omega)), TBox.ten_data rfl rfl]
      decide
    · have := TBox.ten_rotate h1 1 rfl (i := []) (o := [1, 0]) .nil (.two (by omega) (by omega))
      rw [show ([0, 1] : List Nat) = [] ++ [0, 1] from rfl,
        eval_ofBox h2.evaluable hG [] [0, 1] .nil (.two (by omega) (by omega))]
      refine Eq.trans this ?_
      rw [TBox.ten_data (b := TBox.gen "w" [] [2, 2] (some a) 0) rfl rfl]
      decide

/-- Non-vacuity: two words and a cup, one symbol scaled, one not listed. -/
example : let s : Sym ℤ := ⟨"v", 1, 4, 1⟩
    let d : Diagram Nat (SBox ℤ) := ⟨[], [2], [⟨[], .gen "a" [] [2] (.symbol ⟨"v", 1, 4, 3⟩) 0, []⟩, ⟨[2], .gen "b" [] [2, 2] (.symbol ⟨"u", 1, 2, 1⟩) 0, []⟩, ⟨[], .lit (.cup 2 2), [2]⟩]⟩
    (∀ l ∈ d.layers, l.box.Upright) ∧ SBox.lambdifyDiag [s] [⟨[2], [5, 7]⟩] d = .ok
      ⟨[], [2], [⟨[], .gen "a" [] [2] (.value (some ⟨[2], [15, 21]⟩)) 0, []⟩, ⟨[2], .gen "b" [] [2, 2] (.symbol ⟨"u", 1, 2, 1⟩) 0, []⟩, ⟨[], .lit (.cup 2 2), [2]⟩]⟩ := by
  refine ⟨?_, by decide⟩
  intro l hl
  simp only [List.mem_cons, List.not_mem_nil, or_false] at hl
  rcases hl with rfl | rfl | rfl <;> trivial

end Lambeq
