import Verif.Grammar.Structural
import Mathlib.Data.List.Perm.Subperm
import Mathlib.Data.List.Nodup

/-!
# Permutations and swaps: C11, C12
-/

namespace Lambeq
set_option linter.unusedSimpArgs false
set_option linter.unnecessarySeqFocus false
open Diagram

namespace GDiagram

/-- **C11.** `Diagram.permutation(dom, p)` raises `ValueError` unless `p` is a permutation of
`range(len(dom))` (stated with Mathlib-free `List.Perm`); otherwise the result is a well-typed diagram
of adjacent swaps starting at `dom`; whatever labels are put on the input wires, output wire `k` shows
the label of input wire `p[k]`; in particular `cod[k] == dom[p[k]]`. -/
theorem C11_permutation (dom : Ty) (p : List Int) :
    (¬ List.Perm p ((List.range dom.length).map Int.ofNat) →
        permutation (B := Box) dom p = .error .valueError)
    ∧ (List.Perm p ((List.range dom.length).map Int.ofNat) →
        ∃ d : GDiagram, permutation dom p = .ok d ∧ d.dom = dom ∧ d.WT ∧ OnlySwaps d.layers
          ∧ d.cod.length = dom.length
          ∧ (∀ k, k < dom.length → d.cod[k]? = (p[k]?).bind (fun i => dom[i.toNat]?))
          ∧ (∀ {α : Type} (labels : List α), labels.length = dom.length →
              ∀ k, k < dom.length →
                (routeWires d.layers labels)[k]? = (p[k]?).bind (fun i => labels[i.toNat]?))) := by
  have key : List.Perm p ((List.range dom.length).map Int.ofNat) ↔ validPerm dom.length p = true := by
    rw [validPerm_iff]
    constructor
    · intro h
      refine ⟨by simpa using h.length_eq, ?_, ?_⟩
      · intro x hx
        have := h.subset hx
        obtain ⟨y, hy, rfl⟩ := List.mem_map.1 this
        have hy : y < dom.length := by simpa using hy
        exact ⟨by simp, by simpa using hy⟩
      · intro i hi
        exact h.symm.subset (List.mem_map.2 ⟨i, by simpa using hi, rfl⟩)
    · rintro ⟨h1, h2, h3⟩
      have hnd : ((List.range dom.length).map Int.ofNat).Nodup :=
        List.Nodup.map (fun a b h => Int.ofNat.inj h) List.nodup_range
      have hsub : (List.range dom.length).map Int.ofNat ⊆ p := by
        intro x hx
        obtain ⟨y, hy, rfl⟩ := List.mem_map.1 hx
        exact h3 y (by simpa using hy)
      exact ((hnd.subperm hsub).perm_of_length_le (by simp [h1])).symm
  refine ⟨fun h => permutation_invalid dom p (by rwa [key, Bool.not_eq_true] at h), fun h => ?_⟩
  have hv := key.1 h
  obtain ⟨d, e1, e2, e3, e4, e5⟩ := permutation_spec (B := Box) dom p hv
  have hpl : p.length = dom.length := ((validPerm_iff _ _).1 hv).1
  have hlab : ∀ {α : Type} (labels : List α), labels.length = dom.length →
      (routeWires d.layers labels).map some = (p.map Int.toNat).map (fun i => labels[i]?) := by
    intro α labels hl
    exact routeWires_of_range _ _ _ (by rw [hl]; exact e5)
  have hget : ∀ {α : Type} (labels : List α), labels.length = dom.length →
      ∀ k, k < dom.length →
        (routeWires d.layers labels)[k]? = (p[k]?).bind (fun i => labels[i.toNat]?) := by
    intro α labels hl k hk
    have h1 := congrArg (fun l => l[k]?) (hlab labels hl)
    have hpk : k < p.length := by omega
    simp only [List.getElem?_map, List.getElem?_eq_getElem hpk, Option.map_some] at h1
    rw [List.getElem?_eq_getElem hpk, Option.bind_some]
    cases h2 : (routeWires d.layers labels)[k]? with
    | none => rw [h2] at h1; simp at h1
    | some v => rw [h2] at h1; simp at h1; exact h1
  have hcod : routeWires d.layers dom = d.cod := by
    have := chain_onlySwaps (a := d.dom) e3 e4
    rwa [e2] at this
  refine ⟨d, e1, e2, e3, e4, ?_, ?_, fun labels hl => hget labels hl⟩
  · have := congrArg List.length (hlab dom rfl)
    rw [hcod] at this; simpa [hpl] using this
  · intro k hk; rw [← hcod]; exact hget dom rfl k hk

/-- Non-vacuity of C11: a 3-cycle on a 3-wire type is a permutation and its diagram has swaps. -/
example : List.Perm [2, 0, 1] ((List.range ([⟨"a",0⟩,⟨"b",0⟩,⟨"c",1⟩] : Ty).length).map Int.ofNat) ∧
    (∃ d : GDiagram, permutation [⟨"a",0⟩,⟨"b",0⟩,⟨"c",1⟩] [2,0,1] = .ok d ∧ d.layers.length = 2
      ∧ d.cod = [⟨"c",1⟩,⟨"a",0⟩,⟨"b",0⟩]) := by
  refine ⟨by decide, _, rfl, rfl, rfl⟩

end GDiagram
end Lambeq
