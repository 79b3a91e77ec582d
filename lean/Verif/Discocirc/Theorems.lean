import Verif.Discocirc.TextSemantics

/-!
# DisCoCirc circuits of texts: the theorems (C88)
-/

namespace Lambeq
open Diagram
set_option linter.unusedSimpArgs false

namespace Disco
variable {R : Type} [CommSemiring R]

/-- C88: the circuit of a text whose first sentence mentions a noun exists, is a state on one noun wire per entity (in the order of first mention), and, whenever
swaps exchange wires and noun spiders copy and compare, that state is the one obtained by letting every sentence act, in order, on the wires of the entities
it mentions, new entities starting in the state of the noun that mentions them first. -/
theorem C88_text {α : Type} [DecidableEq α] (I : Interp Ob FBox R) (hS : I.Swaps) (hI : Spiders I) (ss : List (Sentence α)) (hs : ∀ s ∈ ss, s.Ok)
    (h0 : ∀ s ∈ ss.head?, s.2 ≠ []) : ∃ c : FD, assemble ss = .ok c ∧ c.WT ∧ c.dom = [] ∧
      c.cod = nouns (entities [] (ss.flatMap (fun s => s.2.map Prod.fst))).length ∧
      ∀ y ∈ I.idx c.cod, I.mat c [] y = meaning I ([] : List α) (fun _ => 1) ss y := by
  have hL : Loop (([], [], Diagram.id []) : Big α) := ⟨rfl, by simp, WT.id _, rfl, rfl⟩
  obtain ⟨st, e1, ⟨l1, l2, l3, l4, l5⟩, e3, e4⟩ := text_spec hS hI ss ([], [], Diagram.id []) hL hs (.inr h0)
  obtain ⟨r1, r2, r3, r4⟩ := row_boxes_mat (I := I) st.2.1 l2
  have er : tensorN (Diagram.id [] :: st.2.1.map (fun b => (ofBox b : FD))) = (st.2.1.map (fun b => (ofBox b : FD))).foldr tensor (Diagram.id []) := by
    rw [tensorN_eq_foldr, List.foldr_cons]
    exact tensor_id_nil_left _
  have hc : ((st.2.1.map (fun b => (ofBox b : FD))).foldr tensor (Diagram.id [])).cod = st.2.2.dom := by rw [r3, l4, l1]
  refine ⟨comp _ st.2.2, ?_, comp_wt r1 l3 hc, r2, ?_, ?_⟩
  · unfold assemble
    rw [e1]
    dsimp only
    rw [er]
    exact andThen_eq_ok hc
  · show st.2.2.cod = _
    rw [l5, e3]
  · intro y hy
    have hy' : y ∈ I.idx (nouns st.1.length) := by rw [← l5]; exact hy
    rw [I.mat_comp' l3 hc [] hy, r3, l1]
    have : ∑ k ∈ I.idx (nouns st.1.length), I.mat ((st.2.1.map (fun b => (ofBox b : FD))).foldr tensor (Diagram.id [])) [] k * I.mat st.2.2 k y =
        vec I st.1.length st.2.1 st.2.2 y := by
      unfold vec
      refine Finset.sum_congr rfl (fun k hk => ?_)
      rw [r4 k (by rw [l1]; exact hk)]
    rw [this, e4 y hy']
    refine meaning_congr ss [] ?_ y ?_
    · intro z hz
      have e : z = [] := by simpa using (mem_nouns.1 hz).1
      subst e
      simp [vec, rowTen, I.mat_id, nouns, Interp.idx]
    · rw [← show st.1 = entities [] _ from e3]; exact hy'

/-- C88, refuted in general: if no noun occurs in the first sentence, there is no circuit, whatever follows. -/
theorem C88_refuted_first_without_noun {α : Type} [DecidableEq α] (d : FD) (ss : List (Sentence α)) : assemble ((d, []) :: ss) = .error .valueError := rfl

/-- Whatever the diagrams of the sentences, `ValueError` is the only exception. -/
theorem C88_only_valueError {α : Type} [DecidableEq α] (ss : List (Sentence α)) (e : PyErr) (h : assemble ss = .error e) : e = .valueError := by
  have hthen : ∀ (f g : FD) (e : PyErr), andThen f g = .error e → e = .valueError := by
    intro f g e h
    by_cases hc : f.cod = g.dom
    · rw [andThen_eq_ok hc] at h; simp at h
    · rw [andThen_error_iff.2 hc] at h; simpa using h.symm
  have hattach : ∀ (big m s : FD) (a b : Nat) (e : PyErr), attach big m s a b = .error e → e = .valueError := by
    intro big m s a b e h
    unfold attach at h
    cases h1 : andThen (tensor big (Diagram.id (nouns a))) m with
    | error e' => rw [h1] at h; simp only [Except.error.injEq] at h; rw [← h]; exact hthen _ _ _ h1
    | ok d1 =>
      rw [h1] at h
      dsimp only at h
      cases h2 : andThen d1 (tensor (Diagram.id (nouns b)) s) with
      | error e' => rw [h2] at h; simp only [Except.error.injEq] at h; rw [← h]; exact hthen _ _ _ h2
      | ok d2 => rw [h2] at h; exact hthen _ _ _ h
  have hm : ∀ (ws : List Nat) (e : PyErr), matcher ws = .error e → e = .valueError := by
    intro ws e h
    cases ws with
    | nil => simpa [matcher] using h.symm
    | cons a ws =>
      unfold matcher at h
      have hv' : validPerm (nouns (a :: ws).length).length (permList (a :: ws)) = true := by rw [nouns_length]; exact permList_valid _
      obtain ⟨q, q1, _⟩ := permutation_spec (B := FBox) (nouns (a :: ws).length) (permList (a :: ws)) hv'
      rw [q1] at h
      exact hthen _ _ _ h
  have hstep : ∀ (st : Big α) (s : Sentence α) (e : PyErr), sentenceStep st s = .error e → e = .valueError := by
    intro st s e h
    unfold sentenceStep at h
    dsimp only at h
    cases h1 : matcher (wireIds (collect st.1 st.2.1 s.2)) with
    | error e' => rw [h1] at h; simp only [Except.error.injEq] at h; rw [← h]; exact hm _ _ h1
    | ok m =>
      rw [h1] at h
      dsimp only at h
      cases h2 : attach st.2.2 m s.1 (collect st.1 st.2.1 s.2).pre (collect st.1 st.2.1 s.2).anc.length with
      | error e' => rw [h2] at h; simp only [Except.error.injEq] at h; rw [← h]; exact hattach _ _ _ _ _ _ h2
      | ok d => rw [h2] at h; simp at h
  have hloop : ∀ (ss : List (Sentence α)) (st : Big α) (e : PyErr), textLoop st ss = .error e → e = .valueError := by
    intro ss
    induction ss with
    | nil => intro st e h; simp [textLoop] at h
    | cons s ss ih =>
      intro st e h
      rw [textLoop] at h
      cases h1 : sentenceStep st s with
      | error e' => rw [h1] at h; simp only [Except.error.injEq] at h; rw [← h]; exact hstep _ _ _ h1
      | ok st' => rw [h1] at h; exact ih st' e h
  unfold assemble at h
  cases h1 : textLoop (([], [], Diagram.id []) : Big α) ss with
  | error e' => rw [h1] at h; simp only [Except.error.injEq] at h; rw [← h]; exact hloop _ _ _ h1
  | ok st => rw [h1] at h; exact hthen _ _ _ h

/-! ## A text meets the hypotheses -/

/-- Two dimensions, copying spiders, and a different state for every noun. -/
def exI : Interp Ob FBox Int where
  dim _ := 2
  ten b x y := match b with
    | .base (.swap _ _) => if y = x.reverse then 1 else 0
    | .base (.spider _ _ _) => if ∀ c ∈ x ++ y, ∀ c' ∈ x ++ y, c = c' then 1 else 0
    | .base (.word n _ _) => if n = "Alice" then (if y = [0] then 2 else 3) else (if y = [0] then 5 else 7)
    | _ => 1 + 2 * x.getD 0 0 + 4 * y.getD 0 0 + 8 * y.getD 1 0

theorem exI_swaps : exI.Swaps := by
  intro x y i j k l _ _ _ _
  have e : exI.ten (SwapSig.swapBox x y) [i, j] [k, l] = if [k, l] = [i, j].reverse then 1 else 0 := rfl
  rw [e]
  refine if_congr ?_ rfl rfl
  simp

theorem exI_spiders : Spiders exI := fun _ _ _ _ _ _ => rfl

/-- Alice loves Bob. She laughs. -/
def exText : List (Sentence Nat) :=
  let box (n : String) (k : Nat) : FD := ofBox (.base (.gen n (nouns k) (nouns k) 0))
  let word (n : String) : FBox := .base (.word n [noun] 0)
  [(box "loves" 2, [(0, word "Alice"), (1, word "Bob")]), (box "laughs" 1, [(0, word "She")])]

theorem exText_ok : ∀ s ∈ exText, s.Ok := by
  intro s hs
  simp only [exText, List.mem_cons, List.not_mem_nil, or_false] at hs
  rcases hs with rfl | rfl
  · refine ⟨WT.ofBox _, rfl, rfl, ?_⟩
    intro p hp
    simp only [List.mem_cons, List.not_mem_nil, or_false] at hp
    rcases hp with rfl | rfl <;> exact ⟨rfl, rfl⟩
  · refine ⟨WT.ofBox _, rfl, rfl, ?_⟩
    intro p hp
    simp only [List.mem_cons, List.not_mem_nil, or_false] at hp
    subst hp; exact ⟨rfl, rfl⟩

example : ∃ c : FD, assemble exText = .ok c ∧ c.cod = nouns 2 ∧ ∀ y ∈ exI.idx (nouns 2), exI.mat c [] y = meaning exI [] (fun _ => 1) exText y := by
  obtain ⟨c, h1, _, _, h4, h5⟩ := C88_text exI exI_swaps exI_spiders exText exText_ok (by simp [exText])
  have e : c.cod = nouns 2 := h4.trans rfl
  exact ⟨c, h1, e, fun y hy => h5 y (by rw [e]; exact hy)⟩

/-- A sentence of one noun in which it occurs twice uses spiders. -/
example : matcher [1, 0, 1] = .ok ⟨nouns 2, nouns 3, [⟨[noun], .base (.spider noun 1 2), []⟩, ⟨[], .base (.swap noun noun), [noun]⟩]⟩ := by
  rfl

example : permList [1, 0, 1] = [1, 0, 2] := by decide

end Disco
end Lambeq
