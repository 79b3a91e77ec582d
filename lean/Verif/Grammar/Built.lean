import Verif.Grammar.FunctorCache

/-!
# Everything the diagram API builds is well typed: C04

`Built d` says that the Python value `d` can be obtained by a finite sequence of API calls, each of which
returned without raising. Every constructor quotes the model of one API function.
-/

namespace Lambeq
set_option linter.unusedSimpArgs false
open Diagram

/-- Diagrams obtainable through the API. -/
inductive Built : GDiagram → Prop
  | id (t : Ty) : Built (Diagram.id t)
  | box (n : String) (d c : Ty) (z : Int) : Built (ofBox (.gen n d c z))
  | word (n : String) (c : Ty) (z : Int) : Built (ofBox (.word n c z))
  | daggered {b : Box} : Built (ofBox b) → Built (ofBox (.daggered b))
  | cup {l r : Ty} {rev : Bool} {d : GDiagram} : GDiagram.mkCup l r rev = .ok d → Built d
  | cap {l r : Ty} {rev : Bool} {d : GDiagram} : GDiagram.mkCap l r rev = .ok d → Built d
  | swap {l r : Ty} {d : GDiagram} : GDiagram.mkSwap l r = .ok d → Built d
  | spider {t : Ty} {m n : Nat} {d : GDiagram} : GDiagram.mkSpider t m n = .ok d → Built d
  | permutation {t : Ty} {p : List Int} {d : GDiagram} : Diagram.permutation t p = .ok d → Built d
  | permuted {d r : GDiagram} {p : List Int} : Built d → Diagram.permuted d p = .ok r → Built r
  | andThen {f r : GDiagram} {ds : List GDiagram} : Built f → (∀ g ∈ ds, Built g) → thenN f ds = .ok r → Built r
  | tensor {ds : List GDiagram} : (∀ g ∈ ds, Built g) → Built (tensorN ds)
  | thenAt {f g r : GDiagram} {i : Int} : Built f → Built g → thenAt f g i = .ok r → Built r
  | dagger {d r : GDiagram} : Built d → d.daggerPy = .ok r → Built r
  | rotate {d r : GDiagram} {z : Int} : Built d → d.rotatePy z = .ok r → Built r
  | transpose {d r : GDiagram} {left : Bool} : Built d → GDiagram.transpose d left = .ok r → Built r
  | curry {d r : GDiagram} {n : Int} {left : Bool} : Built d → GDiagram.curry d n left = .ok r → Built r
  | slice {d r : GDiagram} {a b : Option Int} : Built d → d.slice a b = .ok r → Built r
  | getInt {d r : GDiagram} {i : Int} : Built d → d.getInt i = .ok r → Built r
  | reversed {d : GDiagram} : Built d → Built (d.sliceRevWith Box.dagger none none)
  | pregroup {ws : List (String × Ty × Int)} {ms : List (GDiagram.Morph × Int × Int)} {d : GDiagram} :
      GDiagram.createPregroupDiagram ws ms = .ok d → Built d
  | fa {x y : Ty} {d : GDiagram} : GDiagram.fa x y = .ok d → Built d
  | ba {x y : Ty} {d : GDiagram} : GDiagram.ba x y = .ok d → Built d
  | fc {x y z : Ty} {d : GDiagram} : GDiagram.fc x y z = .ok d → Built d
  | bc {x y z : Ty} {d : GDiagram} : GDiagram.bc x y z = .ok d → Built d
  | fx {x y z : Ty} {d : GDiagram} : GDiagram.fx x y z = .ok d → Built d
  | bx {x y z : Ty} {d : GDiagram} : GDiagram.bx x y z = .ok d → Built d
  /-- a functor whose `ar` itself only returns diagrams built through the API -/
  | functor {F : Functor} {d r : GDiagram} : (∀ b r, F.ar b = .ok r → Built r) → Built d →
      F.onDiagram d = .ok r → Built r

namespace GDiagram

/-- Well typed, and all cups and caps have passed their check. -/
def WF (d : GDiagram) : Prop := d.WT ∧ d.Valid

theorem wf_id (t : Ty) : WF (Diagram.id t) := ⟨WT.id t, by intro l hl; simp [Diagram.id] at hl⟩

theorem wf_ofBox {b : Box} (h : b.Valid) : WF (ofBox b) :=
  ⟨WT.ofBox b, by intro l hl; simp [ofBox] at hl; subst hl; exact h⟩

theorem wf_andThen {f g r : GDiagram} (hf : WF f) (hg : WF g) (h : Diagram.andThen f g = .ok r) : WF r := by
  refine ⟨hf.1.andThen hg.1 h, ?_⟩
  obtain ⟨h1, rfl⟩ := andThen_ok_iff.1 h
  intro l hl
  rcases List.mem_append.1 hl with h | h
  · exact hf.2 l h
  · exact hg.2 l h

theorem wf_tensor {f g : GDiagram} (hf : WF f) (hg : WF g) : WF (tensor f g) := by
  refine ⟨hf.1.tensor hg.1, ?_⟩
  intro l hl
  rw [tensor_eq] at hl
  rcases List.mem_append.1 hl with h | h
  · obtain ⟨l', h', rfl⟩ := List.mem_map.1 h; exact hf.2 l' h'
  · obtain ⟨l', h', rfl⟩ := List.mem_map.1 h; exact hg.2 l' h'

theorem wf_tensorN {ds : List GDiagram} (h : ∀ g ∈ ds, WF g) : WF (tensorN ds) := by
  rw [tensorN_eq_foldr]
  induction ds with
  | nil => exact wf_id []
  | cons d ds ih => exact wf_tensor (h d (by simp)) (ih (fun g hg => h g (by simp [hg])))

theorem wf_thenN {f r : GDiagram} {ds : List GDiagram} (hf : WF f) (h : ∀ g ∈ ds, WF g)
    (hr : thenN f ds = .ok r) : WF r := by
  induction ds generalizing f with
  | nil =>
    have : f = r := by simpa [thenN, thenLoop] using hr
    exact this ▸ hf
  | cons g ds ih =>
    rw [thenN_cons] at hr
    cases hx : Diagram.andThen f g with
    | error e => rw [hx] at hr; simp [Except.bind] at hr
    | ok x =>
      rw [hx] at hr
      exact ih (wf_andThen hf (h g (by simp)) hx) (fun g hg => h g (by simp [hg])) hr

theorem wf_permutation {t : Ty} {p : List Int} {d : GDiagram} (h : permutation t p = .ok d) : WF d := by
  by_cases hp : List.Perm p ((List.range t.length).map Int.ofNat)
  · obtain ⟨d', h1, _, h3, h4, _⟩ := (C11_permutation t p).2 hp
    rw [h1] at h; injection h with h; subst h
    exact ⟨h3, valid_of_onlySwaps h4⟩
  · rw [(C11_permutation t p).1 hp] at h; simp at h

theorem wf_thenAt {f g r : GDiagram} {i : Int} (hf : WF f) (hg : WF g) (h : Diagram.thenAt f g i = .ok r) : WF r :=
  wf_andThen hf (wf_tensor (wf_tensor (wf_id _) hg) (wf_id _)) h

theorem wf_transpose {d r : GDiagram} {left : Bool} (hd : WF d) (h : transpose d left = .ok r) : WF r := by
  unfold transpose at h
  split at h <;> simp only [Functor.bind_ok_iff] at h <;> obtain ⟨cap, h1, cup, h2, x, h3, h4⟩ := h
  · exact wf_andThen (wf_andThen (wf_tensor (wf_id _) (mkCap_wf h1))
      (wf_tensor (wf_tensor (wf_id _) hd) (wf_id _)) h3) (wf_tensor (mkCup_wf h2) (wf_id _)) h4
  · exact wf_andThen (wf_andThen (wf_tensor (mkCap_wf h1) (wf_id _))
      (wf_tensor (wf_tensor (wf_id _) hd) (wf_id _)) h3) (wf_tensor (wf_id _) (mkCup_wf h2)) h4

theorem wf_curry {d r : GDiagram} {n : Int} {left : Bool} (hd : WF d) (h : curry d n left = .ok r) : WF r := by
  unfold curry at h
  split at h <;> simp only [Functor.bind_ok_iff] at h <;> obtain ⟨cap, h1, h2⟩ := h
  · exact wf_andThen (wf_tensor (wf_id _) (mkCap_wf h1)) (wf_tensor hd (wf_id _)) h2
  · exact wf_andThen (wf_tensor (mkCap_wf h1) (wf_id _)) (wf_tensor (wf_id _) hd) h2

/-- A contiguous part of a chain is a chain between its own end points. -/
theorem chain_infix {a c : Ty} {ls : List GLayer} (h : Chain a ls c) {m : List GLayer} (hm : m <:+: ls)
    {x y : GLayer} (hx : m.head? = some x) (hy : m.getLast? = some y) : Chain x.dom m y.cod := by
  obtain ⟨s, t, rfl⟩ := hm
  obtain ⟨b, h1, h2⟩ := chain_append_iff.1 h
  obtain ⟨b0, h3, h4⟩ := chain_append_iff.1 h1
  clear h1 h2 h3 h
  induction m generalizing b0 x with
  | nil => simp at hx
  | cons l m ih =>
    simp at hx; subst hx
    refine ⟨rfl, ?_⟩
    cases m with
    | nil => simp at hy; subst hy; rfl
    | cons l' m =>
      have h5 := h4.2
      have h6 : l'.dom = l.cod := h5.1
      rw [← h6]
      exact ih (x := l') rfl (by simpa using hy) _ h5

theorem slice_infix {α : Type} (l : List α) (a b : Option Int) : pySlice l a b <:+: l := by
  unfold pySlice
  exact (List.take_prefix _ _).isInfix.trans (List.drop_suffix _ _).isInfix

theorem wf_slice {d r : GDiagram} {a b : Option Int} (hd : WF d) (h : d.slice a b = .ok r) : WF r := by
  unfold slice at h
  simp only at h
  have hin := slice_infix d.layers a b
  generalize pySlice d.layers a b = m at h hin
  split at h
  · rename_i x y hx hy
    injection h with h; subst h
    exact ⟨chain_infix hd.1 hin hx hy, fun l hl => hd.2 l (hin.subset hl)⟩
  · have key : ∃ t, r = Diagram.id t := by
      repeat' split at h
      all_goals first
        | (injection h with h; exact ⟨_, h.symm⟩)
        | simp at h
    obtain ⟨t, rfl⟩ := key
    exact wf_id t

theorem wf_dagger {d r : GDiagram} (hd : WF d) (h : d.daggerPy = .ok r) : WF r := by
  have := daggerPy_ok hd.1 hd.2
  rw [this.1] at h; injection h with h; subst h
  exact ⟨this.2.2, this.2.1⟩

theorem wf_rotate {d r : GDiagram} {z : Int} (hd : WF d) (h : d.rotatePy z = .ok r) : WF r := by
  have := (C08_rotate d d hd.1 z z).2.2.2.2.2.2.2.2.2 hd.2
  rw [this.1] at h; injection h with h; subst h
  exact ⟨wt_rotate z hd.1, this.2⟩

theorem wf_map {x : Except PyErr GDiagram} {f : GDiagram → GDiagram} {d : GDiagram}
    (hx : ∀ r, x = .ok r → WF (f r)) (h : x.map f = .ok d) : WF d := by
  cases x with
  | error e => simp [Except.map] at h
  | ok r => simp [Except.map] at h; subst h; exact hx r rfl

theorem wf_foldlM_place {bs : List (GDiagram × Int)} (hb : ∀ b ∈ bs, WF b.1) {d r : GDiagram} (hd : WF d)
    (h : bs.foldlM placeStep d = .ok r) : WF r := by
  induction bs generalizing d with
  | nil => injection h with h; subst h; exact hd
  | cons b bs ih =>
    rw [List.foldlM_cons, Functor.bind_ok_iff] at h
    obtain ⟨x, h1, h2⟩ := h
    exact ih (fun b hb' => hb b (by simp [hb']))
      (wf_andThen hd (wf_tensor (wf_tensor (wf_id _) (hb b (by simp))) (wf_id _)) h1) h2

theorem wf_pregroup {ws : List (String × Ty × Int)} {ms : List (Morph × Int × Int)} {d : GDiagram}
    (h : createPregroupDiagram ws ms = .ok d) : WF d := by
  unfold createPregroupDiagram at h
  split at h
  · simp at h
  · rename_i bs hbs
    refine wf_foldlM_place ?_ (wf_id []) h
    intro b hb
    rcases List.mem_append.1 hb with h1 | h1
    · clear hbs h hb
      generalize ([] : Ty) = t0 at h1
      induction ws generalizing t0 with
      | nil => simp [wordBoxes] at h1
      | cons w ws ih =>
        simp only [wordBoxes, List.mem_cons] at h1
        rcases h1 with rfl | h1
        · exact wf_ofBox trivial
        · exact ih _ h1
    · clear h hb
      generalize ([] : List (Morph × Int × Int)) = bf at hbs
      induction ms generalizing bf bs with
      | nil => simp [morphBoxes] at hbs; subst hbs; simp at h1
      | cons m ms ih =>
        simp only [morphBoxes] at hbs
        split at hbs
        · simp at hbs
        · rename_i x hx
          split at hbs
          · simp at hbs
          · rename_i rest hr
            injection hbs with hbs; subst hbs
            rcases List.mem_cons.1 h1 with rfl | h1
            · rcases m with ⟨k, s, e⟩
              unfold morphBox at hx
              cases k with
              | cup => exact mkCup_wf hx
              | swap => exact mkSwap_wf hx
              | other => simp at hx
            · exact ih rest h1 _ hr

end GDiagram

open GDiagram in
/-- **C04.** Every diagram obtained through the API, by any number of calls, is well typed: its layers
lead from `dom` to `cod`. In addition all its cups and caps join adjoint wires, so that `dagger` and
`rotate` never raise on it. -/
theorem C04_api_well_typed (d : GDiagram) (h : Built d) :
    d.WT ∧ d.Valid ∧ (∃ r, d.daggerPy = .ok r) ∧ ∀ z, ∃ r, d.rotatePy z = .ok r := by
  have wf : WF d := by
    induction h with
    | id t => exact wf_id t
    | box n d c z => exact wf_ofBox trivial
    | word n c z => exact wf_ofBox trivial
    | @daggered b _ ih =>
      have hv : Box.Valid b := ih.2 ⟨[], b, []⟩ (List.mem_singleton.2 rfl)
      exact wf_ofBox (b := .daggered b) hv
    | cup h => exact mkCup_wf h
    | cap h => exact mkCap_wf h
    | swap h => exact mkSwap_wf h
    | spider h => exact mkSpider_wf h
    | permutation h => exact wf_permutation h
    | permuted _ h ih =>
      unfold Diagram.permuted at h
      split at h
      · rename_i q hq; exact wf_andThen ih (wf_permutation hq) h
      · simp at h
    | andThen _ _ h ih ih' => exact wf_thenN ih ih' h
    | tensor _ ih => exact wf_tensorN ih
    | thenAt _ _ h ih ih' => exact wf_thenAt ih ih' h
    | dagger _ h ih => exact wf_dagger ih h
    | rotate _ h ih => exact wf_rotate ih h
    | transpose _ h ih => exact wf_transpose ih h
    | curry _ h ih => exact wf_curry ih h
    | slice _ h ih => exact wf_slice ih h
    | getInt _ h ih =>
      unfold getInt at h
      split at h
      · simp at h
      · exact wf_slice ih h
    | reversed _ ih =>
      rw [C10_full_reverse_partial Box.dagger _ ih.1]
      exact wf_dagger ih (daggerPy_ok ih.1 ih.2).1
    | pregroup h => exact wf_pregroup h
    | fa h => exact wf_map (fun r hr => wf_tensor (wf_id _) (mkCup_wf hr)) h
    | ba h =>
      refine wf_map (fun r hr => wf_tensorN ?_) h
      intro g hg
      simp at hg
      rcases hg with rfl | rfl | rfl
      · exact wf_id _
      · exact mkCup_wf hr
      · exact wf_id _
    | fc h => exact wf_map (fun r hr => wf_tensor (wf_tensor (wf_id _) (mkCup_wf hr)) (wf_id _)) h
    | bc h => exact wf_map (fun r hr => wf_tensor (wf_tensor (wf_id _) (mkCup_wf hr)) (wf_id _)) h
    | fx h =>
      unfold GDiagram.fx at h
      simp only [Functor.bind_ok_iff] at h
      obtain ⟨s1, h1, s2, h2, c, h3, h4⟩ := h
      exact wf_andThen (wf_tensor (wf_tensor (wf_id _) (mkSwap_wf h1)) (wf_id _))
        (wf_tensor (mkSwap_wf h2) (mkCup_wf h3)) h4
    | bx h =>
      unfold GDiagram.bx at h
      simp only [Functor.bind_ok_iff] at h
      obtain ⟨s1, h1, c, h2, s2, h3, h4⟩ := h
      exact wf_andThen (wf_tensor (wf_tensor (wf_id _) (mkSwap_wf h1)) (wf_id _))
        (wf_tensor (mkCup_wf h2) (mkSwap_wf h3)) h4
    | functor _ _ h ih ih' => exact (Functor.C17_arrows _ _ _ h).2.2 ih'.1 (fun b r hr => fun _ => ih b r hr)
  exact ⟨wf.1, wf.2, ⟨_, (daggerPy_ok wf.1 wf.2).1⟩,
    fun z => ⟨_, ((C08_rotate d d wf.1 z z).2.2.2.2.2.2.2.2.2 wf.2).1⟩⟩

/-- Non-vacuity: "Alice runs" with its cup, then daggered, is built. -/
example : ∃ d r, GDiagram.createPregroupDiagram
    [("Alice", [⟨"n", 0⟩], 0), ("runs", [⟨"n", 1⟩, ⟨"s", 0⟩], 0)] [(.cup, 0, 1)] = .ok d
    ∧ Built d ∧ Built r ∧ d.daggerPy = .ok r ∧ d.cod = [⟨"s", 0⟩] := by
  have h1 : ∃ d, GDiagram.createPregroupDiagram
    [("Alice", [⟨"n", 0⟩], 0), ("runs", [⟨"n", 1⟩, ⟨"s", 0⟩], 0)] [(.cup, 0, 1)] = .ok d
      ∧ d.cod = [⟨"s", 0⟩] := ⟨_, rfl, rfl⟩
  obtain ⟨d, hd, hc⟩ := h1
  have hb := Built.pregroup hd
  obtain ⟨_, _, ⟨r, hr⟩, _⟩ := C04_api_well_typed d hb
  exact ⟨d, r, hd, hb, Built.dagger hb hr, hr, hc⟩

end Lambeq
