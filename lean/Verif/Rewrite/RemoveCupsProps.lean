import Verif.Rewrite.DiagramRewriter
import Verif.Rewrite.RewriterProps
import Verif.Grammar.SemanticsCalc

/-!
# Removing cups: C57
-/

namespace Lambeq
open Diagram GDiagram
set_option linter.unusedSimpArgs false
set_option linter.unusedVariables false

namespace DRewrite

/-- The name of a box without its daggers. -/
def baseName : Box → String
  | .daggered b => baseName b
  | b => Rewrite.boxName b

/-- No box of the diagram carries the name reserved by the rewriter (`'**CUP**'`), with or without daggers. -/
def NoTok (d : GDiagram) : Prop := ∀ b ∈ d.boxes, baseName b ≠ cupToken

section
variable {R : Type} [CommSemiring R] {I : Interp Ob Box R}

/-! ## Nested cups -/

theorem cup_name : "CUP" ≠ cupToken := by decide

theorem sum_delta (t : Ty) {i : List Nat} (hi : i ∈ I.idx t) (f : List Nat → R) :
    ∑ u ∈ I.idx t, (if u = i then 1 else 0) * f u = f i := by
  simp [Finset.sum_ite_eq', hi]

theorem nestedCups_mat (hI : Compact I) (ps : List (Ob × Ob)) (hp : ∀ p ∈ ps, p.1 = Ty.rotOb (-1) p.2) {i j : List Nat}
    (hi : i ∈ I.idx (ps.map (·.1)).reverse) (hj : j ∈ I.idx (ps.map (·.2))) :
    I.run (nestedCups ps) (fun w => if w = i ++ j then 1 else 0) [] = if i.reverse = j then 1 else 0 := by
  induction ps generalizing i j with
  | nil =>
    have h1 : i = [] := by simpa [Interp.idx] using hi
    have h2 : j = [] := by simpa [Interp.idx] using hj
    subst h1 h2
    rfl
  | cons p ps ih =>
    obtain ⟨a, b⟩ := p
    simp only [List.map_cons, List.reverse_cons] at hi hj
    obtain ⟨i', p0, rfl, hi', hp0⟩ := I.mem_append hi
    obtain ⟨q0, j', rfl, hq0, hj'⟩ := I.mem_append (a := [b]) hj
    obtain ⟨p, hp1, rfl⟩ : ∃ p, p < I.dim a ∧ p0 = [p] := by
      rw [I.mem_idx] at hp0
      cases hp0 with | cons h1 h2 => cases h2; exact ⟨_, h1, rfl⟩
    obtain ⟨q, hq1, rfl⟩ : ∃ q, q < I.dim b ∧ q0 = [q] := by
      rw [I.mem_idx] at hq0
      cases hq0 with | cons h1 h2 => cases h2; exact ⟨_, h1, rfl⟩
    have hv : (Box.cup a b false).Valid := by
      have : a = Ty.rotOb (-1) b := hp (a, b) (by simp)
      simp [Box.Valid, Box.cupAdjoint, Ty.l_singleton, this]
    let l : GLayer := ⟨(ps.map (·.1)).reverse, .cup a b false, ps.map (·.2)⟩
    have w1 : (⟨l.dom, l.cod, [l]⟩ : GDiagram).WT := ⟨rfl, rfl⟩
    have w2 : (⟨l.cod, [], nestedCups ps⟩ : GDiagram).WT := by
      have := nestedCups_chain ps
      simpa [l, Layer.cod, Box.cod, WT] using this
    have e1 := I.mat_comp' w2 (f := ⟨l.dom, l.cod, [l]⟩) rfl (i' ++ [p] ++ ([q] ++ j')) (y := []) (by simp [Interp.idx])
    simp only [Interp.mat, Diagram.comp, List.cons_append, List.nil_append] at e1
    have hc : l.cod = (ps.map (·.1)).reverse ++ ps.map (·.2) := by simp [l, Layer.cod, Box.cod]
    have : nestedCups ((a, b) :: ps) = l :: nestedCups ps := rfl
    rw [this]
    simp only [List.cons_append, List.nil_append]
    rw [e1, hc, I.sum_idx_append]
    have hL : ∀ u ∈ I.idx (ps.map (·.1)).reverse, ∀ v ∈ I.idx (ps.map (·.2)),
        I.run [l] (fun w => if w = i' ++ [p] ++ q :: j' then 1 else 0) (u ++ v)
        = (if u = i' then 1 else 0) * ((if p = q then 1 else 0) * (if v = j' then 1 else 0)) := by
      intro u hu v hv'
      have := layer_mat (I := I) l (xl := i') (xb := [p, q]) (xr := j') (yl := u) (yb := []) (yr := v) hi'
        ((I.mem_idx _ _).2 (.cons hp1 (.cons hq1 .nil))) hj' hu (by simp [l, Box.cod, Interp.idx]) hv'
      rw [show I.ten l.box [p, q] [] = if p = q then 1 else 0 from hI.cup a b false hv p hp1 q hq1] at this
      simpa using this
    rw [Finset.sum_congr rfl (fun u hu => Finset.sum_congr rfl (fun v hv' => by rw [hL u hu v hv']))]
    have : ∀ u ∈ I.idx (ps.map (·.1)).reverse, ∑ v ∈ I.idx (ps.map (·.2)),
        (if u = i' then (1 : R) else 0) * ((if p = q then 1 else 0) * (if v = j' then 1 else 0))
          * I.run (nestedCups ps) (fun w => if w = u ++ v then 1 else 0) []
        = (if u = i' then (1 : R) else 0) * ((if p = q then 1 else 0)
          * I.run (nestedCups ps) (fun w => if w = u ++ j' then 1 else 0) []) := by
      intro u _
      rw [← sum_delta (ps.map (·.2)) hj' (fun v => I.run (nestedCups ps) (fun w => if w = u ++ v then 1 else 0) []),
        Finset.mul_sum, Finset.mul_sum]
      exact Finset.sum_congr rfl (fun v _ => by ring)
    rw [Finset.sum_congr rfl this, sum_delta _ hi' (fun u => (if p = q then 1 else 0)
          * I.run (nestedCups ps) (fun w => if w = u ++ j' then 1 else 0) []),
      ih (fun p hp' => hp p (by simp [hp'])) hi' hj']
    by_cases h1 : p = q
    · by_cases h2 : i'.reverse = j' <;> simp [h1, h2]
    · simp [h1]

/-- A cup-like box: it pairs the wires of two types of equal length, the last of the first with the first of the
second, and so on. -/
structure CupLike (I : Interp Ob Box R) (b : Box) (t1 t2 : Ty) : Prop where
  dom : b.dom = t1 ++ t2
  len : t1.length = t2.length
  cod : b.cod = []
  ten : ∀ i ∈ I.idx t1, ∀ j ∈ I.idx t2, I.ten b (i ++ j) [] = if i.reverse = j then 1 else 0

/-- Cups built by the class constructor denote nested deltas. -/
theorem mkCup_mat (hI : Compact I) {t1 t2 : Ty} {rev : Bool} {d : GDiagram} (h : mkCup t1 t2 rev = .ok d) :
    d.WT ∧ d.Valid ∧ NoTok d ∧ d.dom = t1 ++ t2 ∧ d.cod = [] ∧
    ∀ i ∈ I.idx t1, ∀ j ∈ I.idx t2, I.mat d (i ++ j) [] = if i.reverse = j then 1 else 0 := by
  cases rev with
  | false =>
    by_cases ht : t1 = Ty.l t2
    · subst ht
      rw [mkCup_l] at h
      injection h with h
      subst h
      have hch := nestedCups_chain (t2.map (fun o => (Ty.rotOb (-1) o, o)))
      have hval := nestedCups_valid (t2.map (fun o => (Ty.rotOb (-1) o, o))) (by simp)
      refine ⟨by simpa [WT, Function.comp_def, Ty.l, Ty.rotate] using hch, ?_, ?_, rfl, rfl, ?_⟩
      · intro l hl
        obtain ⟨a, b, e, hab⟩ := hval l hl
        rw [e]
        simp [Box.Valid, Box.cupAdjoint, hab]
      · intro b hb
        obtain ⟨l, hl, rfl⟩ := List.mem_map.1 hb
        obtain ⟨a, b, e, hab⟩ := hval l hl
        rw [e]
        exact cup_name
      · intro i hi j hj
        refine nestedCups_mat hI _ (by simp) ?_ ?_
        · simpa [Function.comp_def, Ty.l, Ty.rotate] using hi
        · simpa [Function.comp_def] using hj
    · rw [(C13_cups t1 t2).1 ht] at h
      simp at h
  | true =>
    rcases mkCup_true_cases h with ⟨rfl, rfl, rfl⟩ | ⟨l, r, rfl, rfl, hadj, rfl⟩
    · refine ⟨WT.id _, (wf_id _).2, by intro b hb; simp [Diagram.boxes, Diagram.id] at hb, rfl, rfl, ?_⟩
      intro i hi j hj
      simp [Interp.idx] at hi hj
      subst hi hj
      simp [Interp.mat_id]
    · have hw := wf_ofBox (b := .cup l r true) hadj
      refine ⟨hw.1, hw.2, ?_, rfl, rfl, ?_⟩
      · intro b hb; simp [Diagram.boxes, ofBox] at hb; subst hb; exact cup_name
      · intro i hi j hj
        rw [I.mat_ofBox _ (by exact I.append_mem (a := [l]) (b := [r]) hi hj) (by simp [Interp.idx, BoxSig.cod, Box.cod])]
        obtain ⟨p, hp1, rfl⟩ : ∃ p, p < I.dim l ∧ i = [p] := by
          rw [I.mem_idx] at hi
          cases hi with | cons h1 h2 => cases h2; exact ⟨_, h1, rfl⟩
        obtain ⟨q, hq1, rfl⟩ : ∃ q, q < I.dim r ∧ j = [q] := by
          rw [I.mem_idx] at hj
          cases hj with | cons h1 h2 => cases h2; exact ⟨_, h1, rfl⟩
        rw [List.singleton_append, hI.cup l r true hadj p hp1 q hq1]
        exact if_congr (by simp) rfl rfl


/-! ## Contracting a word with a cup -/

theorem noTok_tensor {f g : GDiagram} (hf : NoTok f) (hg : NoTok g) : NoTok (tensor f g) := by
  intro b hb
  rw [boxes_tensor] at hb
  rcases List.mem_append.1 hb with h | h
  · exact hf b h
  · exact hg b h

theorem noTok_id (t : Ty) : NoTok (Diagram.id t) := by intro b hb; simp [Diagram.boxes, Diagram.id] at hb

theorem noTok_comp {f g : GDiagram} (hf : NoTok f) (hg : NoTok g) : NoTok (Diagram.comp f g) := by
  intro b hb
  simp only [Diagram.boxes, Diagram.comp, List.map_append, List.mem_append] at hb
  rcases hb with h | h
  · exact hf b h
  · exact hg b h

theorem base_dagger (b : Box) (h : baseName b ≠ cupToken) : baseName b.dagger ≠ cupToken := by
  cases b with
  | gen n d c z => exact h
  | word n c z => exact h
  | cup l r rev => show "CAP" ≠ cupToken; decide
  | cap l r rev => exact cup_name
  | swap l r => exact h
  | spider t n m => exact h
  | daggered c => exact h

theorem base_rotate (z : Int) (b : Box) : baseName (b.rotate z) = baseName b := by
  induction b with
  | gen n d c z0 => rfl
  | word n c z0 => rfl
  | cup l r rev => simp only [Box.rotate]; split <;> rfl
  | cap l r rev => simp only [Box.rotate]; split <;> rfl
  | swap l r => simp only [Box.rotate]; split <;> rfl
  | spider t n m => rfl
  | daggered c ih => simp only [Box.rotate, baseName, ih]

/-- `box.name` is the reserved name only for a box made with it. -/
theorem name_ne (b : Box) (h : baseName b ≠ cupToken) : Rewrite.boxName b ≠ cupToken := by
  cases b with
  | daggered c =>
    intro hs
    have := congrArg (fun t : String => t.toList.getLast?) hs
    simp [cupToken, Rewrite.boxName] at this
  | _ => exact h

theorem noTok_trans {z : Int} {d : GDiagram} (hd : d.WT) (h : NoTok d) : NoTok (GDiagram.rotate z d.dagger) := by
  intro b hb
  simp only [Diagram.boxes, GDiagram.rotate, GDiagram.dagger, (daggerWith_dom_cod Box.dagger d hd).2.2, List.map_map,
    List.mem_map, List.mem_reverse] at hb
  obtain ⟨l, hl, rfl⟩ := hb
  have : baseName (l.box.dagger.rotate z) ≠ cupToken := by
    rw [base_rotate]
    exact base_dagger _ (h _ (List.mem_map.2 ⟨l, hl, rfl⟩))
  simp only [Function.comp, GLayer.rotate]
  split <;> exact this

/-- `word.dagger().r` or `.l` of a state is the effect that is its transpose. -/
theorem rotDagger_spec (hI : Compact I) {z : Int} (hz : z = 1 ∨ z = -1) {f dg rot : GDiagram} (hf : WF f) (ht : NoTok f)
    (hfd : f.dom = []) (h1 : daggerPy f = .ok dg) (h2 : rotatePy z dg = .ok rot) :
    WF rot ∧ NoTok rot ∧ rot.dom = Ty.rotate z f.cod ∧ rot.cod = [] ∧
    ∀ j ∈ I.idx (Ty.rotate z f.cod), I.mat rot j [] = I.mat f [] j.reverse := by
  have hd := daggerPy_ok hf.1 hf.2
  rw [hd.1] at h1
  injection h1 with h1
  subst h1
  rw [Rewrite.rotatePy_ok z hd.2.1] at h2
  injection h2 with h2
  subst h2
  have hdc := daggerWith_dom_cod Box.dagger f hf.1
  have hw : WF (GDiagram.rotate z f.dagger) := wf_rotate ⟨hd.2.2, hd.2.1⟩ (Rewrite.rotatePy_ok z hd.2.1)
  refine ⟨hw, noTok_trans hf.1 ht, ?_, ?_, ?_⟩
  · show Ty.rotate z (Diagram.daggerWith Box.dagger f).dom = _
    rw [hdc.1]
  · show Ty.rotate z (Diagram.daggerWith Box.dagger f).cod = _
    rw [hdc.2.1, hfd]
    simp [Ty.rotate]
  · intro j hj
    have hz2 : (-z) % 2 = 1 := by omega
    have hj' : j.reverse ∈ I.idx f.cod := by
      have := hI.mem_reverse hz2 hj
      rwa [Ty.rotate_rotate, show z + -z = 0 by omega, Ty.rotate_zero] at this
    have := mat_transpose hI hz hf.1 hf.2 (x := []) (y := j.reverse) (by rw [hfd]; simp [Interp.idx]) hj'
    simpa using this

/-- Contracting a state on the left. -/
theorem contract_left (hI : Compact I) {z : Int} (hz : z = 1 ∨ z = -1) {f g rot : GDiagram} {b : Box} {W : Ty}
    (hf : WF f) (hg : WF g) (hfd : f.dom = []) (hr : WF rot) (hrd : rot.dom = Ty.rotate z f.cod) (hrc : rot.cod = [])
    (hm : ∀ j ∈ I.idx (Ty.rotate z f.cod), I.mat rot j [] = I.mat f [] j.reverse)
    (hb : CupLike I b f.cod (Ty.rotate z f.cod)) (hc : g.cod = Ty.rotate z f.cod ++ W) :
    I.SameMap (Diagram.comp g (tensor rot (Diagram.id W)))
      (Diagram.comp (tensor f g) (tensor (Diagram.id []) (tensor (ofBox b) (Diagram.id W)))) := by
  have hz2 : z % 2 = 1 := by omega
  rw [tensor_id_nil_left]
  have hbc : (ofBox b : GDiagram).cod = [] := hb.cod
  have hbd : (ofBox b : GDiagram).dom = f.cod ++ Ty.rotate z f.cod := hb.dom
  have w1 : (tensor rot (Diagram.id W)).WT := hr.1.tensor (WT.id _)
  have w2 : (tensor (ofBox b) (Diagram.id W) : GDiagram).WT := (WT.ofBox b).tensor (WT.id _)
  refine ⟨by simp [Diagram.comp, tensor_dom, hfd], by simp [Diagram.comp, tensor_cod, hbc, hrc], ?_⟩
  intro x hx y hy
  have hx' : x ∈ I.idx g.dom := hx
  have hy' : y ∈ I.idx W := by simpa [Diagram.comp, tensor_cod, hrc, Diagram.id] using hy
  rw [I.mat_comp' w1 (by rw [tensor_dom, hrd, hc]; rfl) x (by rw [tensor_cod, hrc]; exact hy'), hc, I.sum_idx_append]
  rw [I.mat_comp' w2 (by rw [tensor_dom, tensor_cod, hbd, hc]; simp [Diagram.id]) x (by rw [tensor_cod, hbc]; exact hy'), tensor_cod, hc,
    I.sum_idx_append]
  simp only [I.sum_idx_append]
  have nil_mem : ([] : List Nat) ∈ I.idx ([] : Ty) := by simp [Interp.idx]
  have hR : ∀ i ∈ I.idx f.cod, ∀ j ∈ I.idx (Ty.rotate z f.cod), ∀ w ∈ I.idx W,
      I.mat (tensor f g) x (i ++ (j ++ w)) * I.mat (tensor (ofBox b) (Diagram.id W)) (i ++ (j ++ w)) y
      = (if i = j.reverse then 1 else 0) * (I.mat f [] i * I.mat g x (j ++ w) * (if y = w then 1 else 0)) := by
    intro i hi j hj w hw
    have e1 := I.mat_tensor hf.1 hg.1 (x1 := []) (x2 := x) (y1 := i) (y2 := j ++ w) (by rw [hfd]; exact nil_mem) hx' hi
      (by rw [hc]; exact I.append_mem hj hw)
    have e2 := I.mat_tensor (WT.ofBox b) (WT.id W) (x1 := i ++ j) (x2 := w) (y1 := []) (y2 := y)
      (by rw [hbd]; exact I.append_mem hi hj) hw (by rw [hbc]; exact nil_mem) hy'
    rw [I.mat_ofBox b (by show _ ∈ I.idx b.dom; rw [hb.dom]; exact I.append_mem hi hj) (by show _ ∈ I.idx b.cod; rw [hb.cod]; exact nil_mem),
      hb.ten i hi j hj, I.mat_id] at e2
    simp only [List.nil_append, List.append_assoc] at e1 e2
    rw [e1, e2]
    have : (if i.reverse = j then (1 : R) else 0) = if i = j.reverse then 1 else 0 :=
      if_congr (by rw [List.reverse_eq_iff]) rfl rfl
    rw [this]
    ring
  rw [Finset.sum_congr rfl (fun i hi => Finset.sum_congr rfl (fun j hj => Finset.sum_congr rfl (fun w hw => hR i hi j hj w hw)))]
  conv_rhs => rw [Finset.sum_comm]
  refine Finset.sum_congr rfl (fun j hj => ?_)
  have hj' : j.reverse ∈ I.idx f.cod := by
    have := hI.mem_reverse (z := -z) (by omega) hj
    rwa [Ty.rotate_rotate, show z + -z = 0 by omega, Ty.rotate_zero] at this
  conv_rhs => rw [Finset.sum_comm]
  refine Finset.sum_congr rfl (fun w hw => ?_)
  rw [sum_delta f.cod hj' (fun i => I.mat f [] i * I.mat g x (j ++ w) * (if y = w then 1 else 0))]
  have e3 := I.mat_tensor hr.1 (WT.id W) (x1 := j) (x2 := w) (y1 := []) (y2 := y) (by rw [hrd]; exact hj) hw
    (by rw [hrc]; exact nil_mem) hy'
  rw [List.nil_append, I.mat_id, hm j hj] at e3
  rw [e3]
  ring

/-- Contracting a state on the right. -/
theorem contract_right (hI : Compact I) {z : Int} (hz : z = 1 ∨ z = -1) {f g rot : GDiagram} {b : Box} {W : Ty}
    (hf : WF f) (hg : WF g) (hgd : g.dom = []) (hr : WF rot) (hrd : rot.dom = Ty.rotate z g.cod) (hrc : rot.cod = [])
    (hm : ∀ j ∈ I.idx (Ty.rotate z g.cod), I.mat rot j [] = I.mat g [] j.reverse)
    (hb : CupLike I b (Ty.rotate z g.cod) g.cod) (hc : f.cod = W ++ Ty.rotate z g.cod) :
    I.SameMap (Diagram.comp f (tensor (Diagram.id W) rot))
      (Diagram.comp (tensor f g) (tensor (Diagram.id W) (tensor (ofBox b) (Diagram.id [])))) := by
  have hz2 : z % 2 = 1 := by omega
  rw [tensor_id_nil_right]
  have hbc : (ofBox b : GDiagram).cod = [] := hb.cod
  have hbd : (ofBox b : GDiagram).dom = Ty.rotate z g.cod ++ g.cod := hb.dom
  have w1 : (tensor (Diagram.id W) rot).WT := (WT.id _).tensor hr.1
  have w2 : (tensor (Diagram.id W) (ofBox b) : GDiagram).WT := (WT.id _).tensor (WT.ofBox b)
  refine ⟨by simp [Diagram.comp, tensor_dom, hgd], by simp [Diagram.comp, tensor_cod, hbc, hrc], ?_⟩
  intro x hx y hy
  have hx' : x ∈ I.idx f.dom := hx
  have hy' : y ∈ I.idx W := by simpa [Diagram.comp, tensor_cod, hrc, Diagram.id] using hy
  have hyW : y ∈ I.idx (tensor (Diagram.id W) rot).cod := by rw [tensor_cod, hrc, List.append_nil]; exact hy'
  have hyW' : y ∈ I.idx (tensor (Diagram.id W) (ofBox b) : GDiagram).cod := by rw [tensor_cod, hbc, List.append_nil]; exact hy'
  rw [I.mat_comp' w1 (by rw [tensor_dom, hrd, hc]; rfl) x hyW, hc, I.sum_idx_append]
  rw [I.mat_comp' w2 (by rw [tensor_dom, tensor_cod, hbd, hc]; simp [Diagram.id]) x hyW', tensor_cod, hc,
    I.sum_idx_append]
  simp only [I.sum_idx_append]
  have nil_mem : ([] : List Nat) ∈ I.idx ([] : Ty) := by simp [Interp.idx]
  refine Finset.sum_congr rfl (fun w hw => Finset.sum_congr rfl (fun i hi => ?_))
  have hR : ∀ j ∈ I.idx g.cod,
      I.mat (tensor f g) x (w ++ i ++ j) * I.mat (tensor (Diagram.id W) (ofBox b)) (w ++ i ++ j) y
      = (if j = i.reverse then 1 else 0) * (I.mat g [] j * I.mat f x (w ++ i) * (if y = w then 1 else 0)) := by
    intro j hj
    have e1 := I.mat_tensor hf.1 hg.1 (x1 := x) (x2 := []) (y1 := w ++ i) (y2 := j) hx' (by rw [hgd]; exact nil_mem)
      (by rw [hc]; exact I.append_mem hw hi) hj
    have e2 := I.mat_tensor (WT.id W) (WT.ofBox b) (x1 := w) (x2 := i ++ j) (y1 := y) (y2 := []) hw
      (by rw [hbd]; exact I.append_mem hi hj) hy' (by rw [hbc]; exact nil_mem)
    rw [I.mat_ofBox b (by show _ ∈ I.idx b.dom; rw [hb.dom]; exact I.append_mem hi hj) (by show _ ∈ I.idx b.cod; rw [hb.cod]; exact nil_mem),
      hb.ten i hi j hj, I.mat_id] at e2
    simp only [List.append_nil, List.append_assoc] at e1 e2 ⊢
    rw [e1, e2]
    have : (if i.reverse = j then (1 : R) else 0) = if j = i.reverse then 1 else 0 := if_congr eq_comm rfl rfl
    rw [this]
    ring
  rw [Finset.sum_congr rfl hR]
  have hi' : i.reverse ∈ I.idx g.cod := by
    have := hI.mem_reverse (z := -z) (by omega) hi
    rwa [Ty.rotate_rotate, show z + -z = 0 by omega, Ty.rotate_zero] at this
  rw [sum_delta g.cod hi' (fun j => I.mat g [] j * I.mat f x (w ++ i) * (if y = w then 1 else 0))]
  have e3 := I.mat_tensor (WT.id W) hr.1 (x1 := w) (x2 := i) (y1 := y) (y2 := []) hw (by rw [hrd]; exact hi) hy'
    (by rw [hrc]; exact nil_mem)
  rw [List.append_nil, I.mat_id, hm i hi] at e3
  rw [e3]
  ring


/-- The boxes the loop can meet: anything not carrying the reserved name, or a token standing for nested cups. -/
def Good (I : Interp Ob Box R) (b : Box) : Prop :=
  b.Valid ∧ (baseName b ≠ cupToken ∨ (Rewrite.boxName b = cupToken ∧ ∃ t1 t2, CupLike I b t1 t2))

theorem cupLike_cup (hI : Compact I) {l r : Ob} {rev : Bool} (h : (Box.cup l r rev).Valid) :
    CupLike I (.cup l r rev) [l] [r] := by
  refine ⟨rfl, rfl, rfl, ?_⟩
  intro i hi j hj
  obtain ⟨p, hp1, rfl⟩ : ∃ p, p < I.dim l ∧ i = [p] := by
    rw [I.mem_idx] at hi
    cases hi with | cons h1 h2 => cases h2; exact ⟨_, h1, rfl⟩
  obtain ⟨q, hq1, rfl⟩ : ∃ q, q < I.dim r ∧ j = [q] := by
    rw [I.mem_idx] at hj
    cases hj with | cons h1 h2 => cases h2; exact ⟨_, h1, rfl⟩
  rw [List.singleton_append, hI.cup l r rev h p hp1 q hq1]
  exact if_congr (by simp) rfl rfl

theorem noTok_ofBox {b : Box} (h : baseName b ≠ cupToken) : NoTok (ofBox b) := by
  intro c hc
  simp [Diagram.boxes, ofBox] at hc
  exact hc ▸ h

theorem contract_spec (hI : Compact I) {left right new : GDiagram} {b : Box} {L W : Ty} (hl : WF left) (hr : WF right)
    (nl : NoTok left) (nr : NoTok right) (hb : Good I b) (hc : left.cod ++ right.cod = L ++ (b.dom ++ W))
    (h : contract left right b L.length = .ok new) :
    WF new ∧ NoTok new ∧ I.SameMap new
      (Diagram.comp (tensor left right) (tensor (Diagram.id L) (tensor (ofBox b) (Diagram.id W)))) := by
  unfold contract at h
  have e1 : pySlice (left.cod ++ right.cod) none (some (L.length : Int)) = L := by
    rw [pySlice_nat_to, hc]; simp
  have e2 : pySlice (left.cod ++ right.cod) (some ((L.length + b.dom.length : Nat) : Int)) none = W := by
    rw [pySlice_nat_from, hc, ← List.append_assoc, ← List.length_append, List.drop_left]
  simp only [e1, e2] at h
  have lr_wf : WF (tensor left right) := wf_tensor hl hr
  split at h
  · rename_i hcup
    obtain ⟨t1, t2, hcl⟩ : ∃ t1 t2, CupLike I b t1 t2 := by
      rcases hcup with h1 | h1
      · rcases hb.2 with h2 | h2
        · exact absurd h1 (name_ne b h2)
        · exact h2.2
      · cases b with
        | cup l r rev => exact ⟨[l], [r], cupLike_cup hI hb.1⟩
        | _ => simp [isCup] at h1
    have hlen : b.dom.length / 2 = t1.length := by rw [hcl.dom, List.length_append, ← hcl.len]; omega
    have s1 : pySlice b.dom none (some ((b.dom.length / 2 : Nat) : Int)) = t1 := by
      rw [pySlice_nat_to, hlen, hcl.dom]; simp
    have s2 : pySlice b.dom (some ((b.dom.length / 2 : Nat) : Int)) none = t2 := by
      rw [pySlice_nat_from, hlen, hcl.dom]; simp
    simp only [s1, s2] at h
    rw [hcl.dom] at hc
    split at h
    · rename_i hL
      obtain ⟨hL1, hL2⟩ := hL
      rw [hlen] at hL1
      simp only [Functor.bind_ok_iff] at h
      obtain ⟨dg, h1, rot, h2, h3⟩ := h
      generalize hz : (if Ty.r t1 = t2 then (1 : Int) else -1) = z at h2
      have hz' : z = 1 ∨ z = -1 := by rw [← hz]; split <;> simp
      obtain ⟨r1, r2, r3, r4, r5⟩ := rotDagger_spec hI hz' hl nl hL2 h1 h2
      have hw3 := wf_andThen hr (wf_tensor r1 (wf_id W)) h3
      obtain ⟨hd, rfl⟩ := andThen_ok_iff.1 h3
      rw [tensor_dom, r3] at hd
      change right.cod = _ ++ W at hd
      have hlenL : L.length = 0 := by
        have a1 := congrArg List.length hc
        have a2 := congrArg List.length hd
        simp [Ty.rotate_length] at a1 a2
        have := hcl.len
        omega
      obtain rfl : L = [] := List.length_eq_zero_iff.1 hlenL
      simp only [List.nil_append] at hc
      have hc' : left.cod ++ right.cod = t1 ++ (t2 ++ W) := by rw [hc]; simp
      obtain ⟨q1, q2⟩ := List.append_inj hc' hL1
      rw [hd] at q2
      obtain ⟨q3, _⟩ := List.append_inj q2 (by simp [Ty.rotate_length, hL1, hcl.len])
      subst q1
      have hcl' : CupLike I b left.cod (Ty.rotate z left.cod) := by rw [q3]; exact hcl
      refine ⟨hw3, ?_, contract_left hI hz' hl hr hL2 r1 r3 r4 r5 hcl' hd⟩
      exact noTok_comp nr (noTok_tensor r2 (noTok_id _))
    · split at h
      · rename_i hR
        obtain ⟨hR1, hR2⟩ := hR
        rw [hlen] at hR1
        simp only [Functor.bind_ok_iff] at h
        obtain ⟨dg, h1, rot, h2, h3⟩ := h
        generalize hz : (if Ty.r t1 = t2 then (-1 : Int) else 1) = z at h2
        have hz' : z = 1 ∨ z = -1 := by rw [← hz]; split <;> simp
        obtain ⟨r1, r2, r3, r4, r5⟩ := rotDagger_spec hI hz' hr nr hR2 h1 h2
        have hw3 := wf_andThen hl (wf_tensor (wf_id L) r1) h3
        obtain ⟨hd, rfl⟩ := andThen_ok_iff.1 h3
        rw [tensor_dom, r3] at hd
        change left.cod = L ++ _ at hd
        have hlenW : W.length = 0 := by
          have a1 := congrArg List.length hc
          have a2 := congrArg List.length hd
          simp [Ty.rotate_length] at a1 a2
          have := hcl.len
          omega
        obtain rfl : W = [] := List.length_eq_zero_iff.1 hlenW
        have hc' : left.cod ++ right.cod = (L ++ t1) ++ t2 := by rw [hc]; simp
        obtain ⟨q1, q2⟩ := List.append_inj' hc' (by rw [hR1, hcl.len])
        rw [hd] at q1
        obtain ⟨_, q3⟩ := List.append_inj q1 rfl
        subst q2
        have hcl' : CupLike I b (Ty.rotate z right.cod) right.cod := by rw [q3]; exact hcl
        refine ⟨hw3, ?_, contract_right hI hz' hl hr hR2 r1 r3 r4 r5 hcl' hd⟩
        exact noTok_comp nl (noTok_tensor (noTok_id _) r2)
      · simp only [Functor.bind_ok_iff] at h
        obtain ⟨nbox, h1, h2⟩ := h
        obtain ⟨m1, m2, m3, m4, m5, m6⟩ := mkCup_mat hI h1
        have wX : WF (tensor (tensor (Diagram.id L) nbox) (Diagram.id W)) :=
          wf_tensor (wf_tensor (wf_id L) ⟨m1, m2⟩) (wf_id W)
        have hw := wf_andThen lr_wf wX h2
        obtain ⟨hd, rfl⟩ := andThen_ok_iff.1 h2
        refine ⟨hw, noTok_comp (noTok_tensor nl nr) (noTok_tensor (noTok_tensor (noTok_id _) m3) (noTok_id _)), ?_⟩
        rw [tensor_assoc]
        rw [tensor_assoc] at wX hd
        have hsame : I.SameMap nbox (ofBox b) := by
          refine ⟨m4.trans hcl.dom.symm, m5.trans hcl.cod.symm, ?_⟩
          intro x hx y hy
          rw [m4] at hx
          rw [m5] at hy
          obtain ⟨i, j, rfl, hi, hj⟩ := I.mem_append hx
          have : y = [] := by simpa [Interp.idx] using hy
          subst this
          rw [m6 i hi j hj, I.mat_ofBox b (by show _ ∈ I.idx b.dom; rw [hcl.dom]; exact hx)
            (by show _ ∈ I.idx b.cod; rw [hcl.cod]; exact hy), hcl.ten i hi j hj]
        exact Interp.SameMap.comp (.refl _)
          (Interp.SameMap.tensor (.refl _) (Interp.SameMap.tensor hsame (.refl _) m1 (WT.ofBox _) (WT.id _) (WT.id _)) (WT.id _) (WT.id _)
            (m1.tensor (WT.id _)) ((WT.ofBox _).tensor (WT.id _))) wX.1 ((WT.id _).tensor ((WT.ofBox _).tensor (WT.id _))) hd
  · rename_i hn
    have nb : baseName b ≠ cupToken := by
      rcases hb.2 with h2 | h2
      · exact h2
      · exact absurd (.inl h2.1) hn
    have hw := wf_andThen lr_wf (wf_tensor (wf_tensor (wf_id L) (wf_ofBox hb.1)) (wf_id W)) h
    obtain ⟨hd, rfl⟩ := andThen_ok_iff.1 h
    refine ⟨hw, noTok_comp (noTok_tensor nl nr) (noTok_tensor (noTok_tensor (noTok_id _) (noTok_ofBox nb)) (noTok_id _)), ?_⟩
    rw [tensor_assoc]
    exact .refl _


/-! ## One step of the loop -/

theorem tensorN_append (a b : List GDiagram) : (tensorN (a ++ b) : GDiagram) = tensor (tensorN a) (tensorN b) := by
  rw [tensorN_eq_foldr, tensorN_eq_foldr, tensorN_eq_foldr]
  induction a with
  | nil => simp [tensor_id_nil_left]
  | cons d a ih => simp only [List.cons_append, List.foldr_cons, ih, tensor_assoc]

theorem tensorN_cons (d : GDiagram) (a : List GDiagram) : (tensorN (d :: a) : GDiagram) = tensor d (tensorN a) := by
  rw [tensorN_eq_foldr, tensorN_eq_foldr]; rfl

theorem tensorN_nil : (tensorN [] : GDiagram) = Diagram.id [] := by rw [tensorN_eq_foldr]; rfl

theorem noTok_tensorN {ds : List GDiagram} (h : ∀ g ∈ ds, NoTok g) : NoTok (tensorN ds) := by
  induction ds with
  | nil => rw [tensorN_nil]; exact noTok_id _
  | cons d ds ih =>
    rw [tensorN_cons]
    exact noTok_tensor (h d (by simp)) (ih (fun g hg => h g (by simp [hg])))

theorem findDiag_spec (ds : List GDiagram) (off : Nat) :
    (findDiag ds off).1 ≤ ds.length ∧ off = (tensorN (ds.take (findDiag ds off).1)).cod.length + (findDiag ds off).2 ∧
    ∀ g, ds[(findDiag ds off).1]? = some g → (findDiag ds off).2 < g.cod.length := by
  induction ds generalizing off with
  | nil => simp [findDiag, tensorN_nil, Diagram.id]
  | cons d ds ih =>
    rw [findDiag]
    split
    · rename_i h
      obtain ⟨h1, h2, h3⟩ := ih (off - d.cod.length)
      refine ⟨by simpa using h1, ?_, ?_⟩
      · simp only [List.take_succ_cons, tensorN_cons, tensor_cod, List.length_append]
        omega
      · intro g hg
        exact h3 g (by simpa using hg)
    · rename_i h
      refine ⟨by simp, by simp [tensorN_nil, Diagram.id], ?_⟩
      intro g hg
      simp at hg
      subst hg
      simpa using h

theorem gather_spec (need : Nat) (left : GDiagram) (ds : List GDiagram) : ∀ (right : GDiagram) (r : GDiagram × Nat),
    gather need left right ds = .ok r → r.2 ≤ ds.length ∧ r.1 = tensor right (tensorN (ds.take r.2))
      ∧ need ≤ (left.cod ++ r.1.cod).length
      ∧ (r.2 ≠ 0 → (left.cod ++ right.cod ++ (tensorN (ds.take (r.2 - 1))).cod).length < need) := by
  induction ds with
  | nil =>
    intro right r h
    rw [gather] at h
    split at h
    · simp at h
    · rename_i hn
      injection h with h
      subst h
      refine ⟨by simp, by simp [tensorN_nil, tensor_id_nil_right], ?_, by simp⟩
      simpa using hn
  | cons e ds ih =>
    intro right r h
    rw [gather] at h
    split at h
    · rename_i hn
      simp only [Functor.bind_ok_iff] at h
      obtain ⟨r', h1, h2⟩ := h
      injection h2 with h2
      subst h2
      obtain ⟨k1, k2, k3, k4⟩ := ih _ _ h1
      refine ⟨by simpa using k1, ?_, k3, ?_⟩
      · simp only [List.take_succ_cons, tensorN_cons]
        rw [k2, tensor_assoc]
      · intro _
        simp only [Nat.add_sub_cancel]
        by_cases h0 : r'.2 = 0
        · rw [h0]; simpa [tensorN_nil, Diagram.id] using hn
        · have := k4 h0
          obtain ⟨m, hm⟩ : ∃ m, r'.2 = m + 1 := ⟨r'.2 - 1, by omega⟩
          rw [hm] at this ⊢
          simp only [List.take_succ_cons, tensorN_cons, tensor_cod, List.length_append, Nat.add_sub_cancel] at this ⊢
          omega
    · rename_i hn
      injection h with h
      subst h
      refine ⟨by simp, by simp [tensorN_nil, tensor_id_nil_right], ?_, by simp⟩
      simpa using hn

/-- The part of the state that matters: everything is well formed and the juxtaposition of the diagrams denotes the
part of the input read so far. -/
structure Inv (I : Interp Ob Box R) (ds : List GDiagram) (pre : GDiagram) : Prop where
  wf : ∀ g ∈ ds, WF g
  tok : ∀ g ∈ ds, NoTok g
  same : I.SameMap (tensorN ds) pre

/-- The layer as a diagram. -/
def ofLayer (l : GLayer) : GDiagram := ⟨l.dom, l.cod, [l]⟩

theorem ofLayer_eq (l : GLayer) : ofLayer l = tensor (Diagram.id l.left) (tensor (ofBox l.box) (Diagram.id l.right)) := by
  simp [ofLayer, tensor_eq, Diagram.id, ofBox, Layer.extend, Layer.dom, Layer.cod]

theorem ofLayer_wt (l : GLayer) : (ofLayer l).WT := ⟨rfl, rfl⟩

/-- Replacing a block of diagrams by a diagram that denotes the block followed by the box. -/
theorem inv_replace {A B C : List GDiagram} {new pre : GDiagram} {l : GLayer} {L W : Ty}
    (h : Inv I (A ++ B ++ C) pre) (wp : pre.WT) (hpl : pre.cod = l.dom) (hnew : WF new) (htok : NoTok new)
    (hL : l.left = (tensorN A).cod ++ L) (hW : l.right = W ++ (tensorN C).cod)
    (hB : (tensorN B).cod = L ++ (l.box.dom ++ W))
    (hs : I.SameMap new (Diagram.comp (tensorN B) (tensor (Diagram.id L) (tensor (ofBox l.box) (Diagram.id W))))) :
    Inv I (A ++ [new] ++ C) (Diagram.comp pre (ofLayer l)) := by
  have wA : WF (tensorN A) := wf_tensorN (fun g hg => h.wf g (by simp [hg]))
  have wB : WF (tensorN B) := wf_tensorN (fun g hg => h.wf g (by simp [hg]))
  have wC : WF (tensorN C) := wf_tensorN (fun g hg => h.wf g (by simp [hg]))
  refine ⟨?_, ?_, ?_⟩
  · intro g hg
    simp only [List.append_assoc, List.mem_append, List.mem_singleton] at hg
    rcases hg with hg | rfl | hg
    · exact h.wf g (by simp [hg])
    · exact hnew
    · exact h.wf g (by simp [hg])
  · intro g hg
    simp only [List.append_assoc, List.mem_append, List.mem_singleton] at hg
    rcases hg with hg | rfl | hg
    · exact h.tok g (by simp [hg])
    · exact htok
    · exact h.tok g (by simp [hg])
  · let X : GDiagram := tensor (Diagram.id L) (tensor (ofBox l.box) (Diagram.id W))
    have wX : X.WT := (WT.id _).tensor ((WT.ofBox _).tensor (WT.id _))
    have hX : (tensorN B).cod = X.dom := by
      rw [hB]; simp [X, tensor_dom, Diagram.id, ofBox, BoxSig.dom]
    have eL : ofLayer l = tensor (Diagram.id (tensorN A).cod) (tensor X (Diagram.id (tensorN C).cod)) := by
      rw [ofLayer_eq, hL, hW, ← id_tensor_id, ← id_tensor_id]
      simp only [X, tensor_assoc]
    have h1 : I.SameMap (tensorN (A ++ [new] ++ C))
        (tensor (tensorN A) (tensor (Diagram.comp (tensorN B) X) (tensorN C))) := by
      rw [List.append_assoc, tensorN_append, List.singleton_append, tensorN_cons]
      exact Interp.SameMap.tensor (.refl _) (Interp.SameMap.tensor hs (.refl _) hnew.1 (comp_wt wB.1 wX hX) wC.1 wC.1) wA.1 wA.1
        (hnew.1.tensor wC.1) ((comp_wt wB.1 wX hX).tensor wC.1)
    have h2 : I.SameMap (Diagram.comp (tensor (tensorN A) (tensor (tensorN B) (tensorN C)))
          (tensor (Diagram.id (tensorN A).cod) (tensor X (Diagram.id (tensorN C).cod))))
        (tensor (tensorN A) (tensor (Diagram.comp (tensorN B) X) (tensorN C))) := by
      have i1 := Interp.interchange (I := I) (f := tensorN A) (g := tensor (tensorN B) (tensorN C)) (h := Diagram.id (tensorN A).cod)
        (k := tensor X (Diagram.id (tensorN C).cod)) wA.1 (wB.1.tensor wC.1) (WT.id _) (wX.tensor (WT.id _)) rfl
        (by rw [tensor_cod, tensor_dom, hX]; rfl)
      have i2 := Interp.interchange (I := I) (f := tensorN B) (g := tensorN C) (h := X) (k := Diagram.id (tensorN C).cod)
        wB.1 wC.1 wX (WT.id _) hX rfl
      rw [Interp.comp_id_right] at i1 i2
      refine i1.trans (Interp.SameMap.tensor (.refl _) i2 wA.1 wA.1 ?_ ((comp_wt wB.1 wX hX).tensor wC.1))
      exact comp_wt (wB.1.tensor wC.1) (wX.tensor (WT.id _)) (by rw [tensor_cod, tensor_dom, hX]; rfl)
    have h3 : tensorN (A ++ B ++ C) = tensor (tensorN A) (tensor (tensorN B) (tensorN C)) := by
      rw [List.append_assoc, tensorN_append, tensorN_append]
    refine h1.trans (h2.symm.trans ?_)
    rw [← eL, ← h3]
    exact Interp.SameMap.comp h.same (.refl _) (ofLayer_wt l) (ofLayer_wt l) (by rw [h.same.2.1]; exact hpl)

theorem removeStep_spec (hI : Compact I) {ds ds' : List GDiagram} {pre : GDiagram} {l : GLayer} (hinv : Inv I ds pre) (wp : pre.WT)
    (hpl : pre.cod = l.dom) (hb : Good I l.box) (h : removeStep ds (l.box, l.left.length) = .ok ds')
    (hne : l.box.dom = [] → baseName l.box ≠ cupToken) :
    Inv I ds' (Diagram.comp pre (ofLayer l)) := by
  unfold removeStep at h
  obtain ⟨f1, f2, f3⟩ := findDiag_spec ds l.left.length
  simp only at h f1 f2 f3
  generalize hf : findDiag ds l.left.length = f at h f1 f2 f3
  obtain ⟨i, o⟩ := f
  simp only at h f1 f2 f3
  have hcod : (tensorN ds).cod = l.left ++ (l.box.dom ++ l.right) := by
    rw [hinv.same.2.1, hpl, Layer.dom, List.append_assoc]; rfl
  split at h
  · rename_i hz
    obtain ⟨rfl, hd⟩ := hz
    injection h with h
    subst h
    have hsplit : ds = ds.take i ++ [] ++ ds.drop i := by simp
    rw [hsplit] at hinv
    have hc2 : (tensorN ds).cod = (tensorN (ds.take i)).cod ++ (tensorN (ds.drop i)).cod := by
      rw [← tensor_cod, ← tensorN_append, List.take_append_drop]
    rw [hc2, hd, List.nil_append] at hcod
    obtain ⟨q1, q2⟩ := List.append_inj hcod (by rw [f2]; rfl)
    refine inv_replace (L := []) (W := []) hinv wp hpl (wf_ofBox hb.1) (noTok_ofBox (hne hd)) (by simp [q1]) (by simp [q2])
      (by simp [tensorN_nil, Diagram.id, hd]) ?_
    rw [tensorN_nil, tensor_id_nil_left, tensor_id_nil_right]
    have := Interp.comp_id_left (ofBox l.box : GDiagram)
    rw [show (ofBox l.box : GDiagram).dom = [] from hd] at this
    rw [this]
    exact .refl _
  · cases hgi : ds[i]? with
    | none => rw [hgi] at h; simp at h
    | some left =>
      rw [hgi] at h
      simp only [Functor.bind_ok_iff] at h
      obtain ⟨g, h1, new, h2, h3⟩ := h
      injection h3 with h3
      subst h3
      obtain ⟨k1, k2, k3, _⟩ := gather_spec _ _ _ _ _ h1
      rw [tensor_id_nil_left] at k2
      have hilt : i < ds.length := by
        by_contra hcon
        rw [List.getElem?_eq_none (by omega)] at hgi
        simp at hgi
      have hdrop : ds.drop i = left :: ds.drop (i + 1) := by
        rw [List.drop_eq_getElem_cons hilt]
        rw [List.getElem?_eq_getElem hilt] at hgi
        injection hgi with hgi
        rw [hgi]
      let B := left :: (ds.drop (i + 1)).take g.2
      have hsplit : ds = ds.take i ++ B ++ ds.drop (i + (g.2 + 1)) := by
        have : ds.drop (i + (g.2 + 1)) = (ds.drop (i + 1)).drop g.2 := by rw [List.drop_drop]; congr 1; omega
        rw [this, List.append_assoc]
        simp only [B, List.cons_append, List.take_append_drop, ← hdrop]
      have hB : tensorN B = tensor left g.1 := by simp only [B, tensorN_cons, k2]
      have hc2 : (tensorN ds).cod = (tensorN (ds.take i)).cod ++ ((left.cod ++ g.1.cod) ++ (tensorN (ds.drop (i + (g.2 + 1)))).cod) := by
        conv_lhs => rw [hsplit]
        rw [List.append_assoc, tensorN_append, tensorN_append, tensor_cod, tensor_cod, hB, tensor_cod]
      rw [hc2] at hcod
      have hleft : l.left = (tensorN (ds.take i)).cod ++ (left.cod ++ g.1.cod).take o := by
        have := congrArg (List.take l.left.length) hcod
        rw [List.take_left, f2, List.take_append, List.take_of_length_le (by omega), Nat.add_sub_cancel_left,
          List.take_append_of_le_length (by omega)] at this
        exact this.symm
      have hrest : (left.cod ++ g.1.cod).drop o ++ (tensorN (ds.drop (i + (g.2 + 1)))).cod = l.box.dom ++ l.right := by
        have := List.append_cancel_left (hcod.trans (show _ = (tensorN (ds.take i)).cod ++
          ((left.cod ++ g.1.cod).take o ++ (l.box.dom ++ l.right)) by rw [hleft, List.append_assoc]))
        conv at this => lhs; rw [← List.take_append_drop o (left.cod ++ g.1.cod)]
        rw [List.append_assoc] at this
        exact List.append_cancel_left this
      have hdom : (left.cod ++ g.1.cod).drop o = l.box.dom ++ ((left.cod ++ g.1.cod).drop o).drop l.box.dom.length := by
        have hle : l.box.dom.length ≤ ((left.cod ++ g.1.cod).drop o).length := by
          rw [List.length_drop]; omega
        have := congrArg (List.take l.box.dom.length) hrest
        rw [List.take_left, List.take_append_of_le_length hle] at this
        conv_lhs => rw [← List.take_append_drop l.box.dom.length ((left.cod ++ g.1.cod).drop o)]
        rw [this]
      generalize hW : ((left.cod ++ g.1.cod).drop o).drop l.box.dom.length = W at hdom
      generalize hLg : (left.cod ++ g.1.cod).take o = L at hleft
      have hcB : left.cod ++ g.1.cod = L ++ (l.box.dom ++ W) := by
        rw [← hdom, ← hLg, List.take_append_drop]
      have hLo : L.length = o := by rw [← hLg, List.length_take]; omega
      have hright : l.right = W ++ (tensorN (ds.drop (i + (g.2 + 1)))).cod := by
        rw [hdom, List.append_assoc] at hrest
        exact (List.append_cancel_left hrest).symm
      have wl : WF left := hinv.wf left (by rw [hsplit]; simp [B])
      have tl : NoTok left := hinv.tok left (by rw [hsplit]; simp [B])
      have wr : WF g.1 := by
        rw [k2]; exact wf_tensorN (fun x hx => hinv.wf x (by rw [hsplit]; simp [B, hx]))
      have tr : NoTok g.1 := by
        rw [k2]; exact noTok_tensorN (fun x hx => hinv.tok x (by rw [hsplit]; simp [B, hx]))
      rw [← hLo] at h2
      obtain ⟨c1, c2, c3⟩ := contract_spec hI wl wr tl tr hb hcB h2
      rw [hsplit] at hinv
      rw [← hB] at c3
      exact inv_replace (B := B) hinv wp hpl c1 c2 hleft hright (by rw [hB, tensor_cod, hcB]) c3

/-- The loop: whatever is returned without an exception is well formed and denotes the same linear map. -/
theorem removeCupsPass_spec (hI : Compact I) {d r : GDiagram} (hd : d.WT) (hb : ∀ l ∈ d.layers, Good I l.box)
    (hne : ∀ l ∈ d.layers, l.box.dom = [] → baseName l.box ≠ cupToken) (h : removeCupsPass d = .ok r) :
    WF r ∧ NoTok r ∧ I.SameMap d r := by
  unfold removeCupsPass at h
  simp only [Functor.bind_ok_iff] at h
  obtain ⟨ds, h1, h2⟩ := h
  injection h2 with h2
  rw [tensorN_cons, tensor_id_nil_left] at h2
  subst h2
  have key : ∀ (ls : List GLayer) (pre : GDiagram) (es : List GDiagram), (∀ l ∈ ls, Good I l.box) →
      (∀ l ∈ ls, l.box.dom = [] → baseName l.box ≠ cupToken) →
      pre.WT → Chain pre.cod ls d.cod → Inv I es pre →
      ((ls.map (·.box)).zip (ls.map (·.left.length))).foldlM removeStep es = .ok ds →
      Inv I ds ⟨pre.dom, d.cod, pre.layers ++ ls⟩ := by
    intro ls
    induction ls with
    | nil =>
      intro pre es _ _ wp hc hi hf
      simp at hf
      injection hf with hf
      subst hf
      have hcc : pre.cod = d.cod := hc
      rw [← hcc, List.append_nil]
      exact hi
    | cons l ls ih =>
      intro pre es hg hne wp hc hi hf
      obtain ⟨hc1, hc2⟩ := hc
      simp only [List.map_cons, List.zip_cons_cons, List.foldlM_cons, Functor.bind_ok_iff] at hf
      obtain ⟨es', s1, s2⟩ := hf
      have := removeStep_spec hI hi wp hc1.symm (hg l (by simp)) s1 (hne l (by simp))
      have := ih (Diagram.comp pre (ofLayer l)) es' (fun m hm => hg m (by simp [hm])) (fun m hm => hne m (by simp [hm]))
        (comp_wt wp (ofLayer_wt l) hc1.symm) hc2 this s2
      simpa [Diagram.comp, ofLayer] using this
  have := key d.layers (Diagram.id d.dom) [Diagram.id d.dom] hb hne (WT.id _) hd
    ⟨by simp only [List.mem_singleton]; rintro g rfl; exact wf_id _, by simp only [List.mem_singleton]; rintro g rfl; exact noTok_id _,
      by rw [tensorN_cons, tensorN_nil, tensor_id_nil_right]; exact .refl _⟩ h1
  refine ⟨wf_tensorN this.wf, noTok_tensorN this.tok, ?_⟩
  have := this.same.symm
  simpa [Diagram.id] using this

end
end DRewrite
end Lambeq
