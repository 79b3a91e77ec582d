import Verif.Drawing.TikzTheorems

/-!
# Styles of lines in TikZ pictures (C116)
-/

namespace Lambeq
namespace Tikz
set_option linter.unusedSectionVars false
set_option linter.unusedVariables false
variable {K : Type} [LinearOrder K]

/-- Every line uses a style of the picture. -/
def Styled (p : Pic K) : Prop := ∀ e ∈ p.edgeLayer, ∃ s ∈ p.edgeStyles, e.options = "style=" ++ s.name

theorem mem_addStyle (s : StyleLine) (p : Pic K) : s ∈ (addStyle s p).edgeStyles := by
  rw [addStyle]
  split
  · assumption
  · simp

theorem sub_addStyle (s : StyleLine) (p : Pic K) : ∀ t ∈ p.edgeStyles, t ∈ (addStyle s p).edgeStyles := by
  intro t ht
  rw [addStyle]
  split
  · exact ht
  · exact List.mem_append_left _ ht

theorem edges_addStyle (s : StyleLine) (p : Pic K) : (addStyle s p).edgeLayer = p.edgeLayer := by
  rw [addStyle]
  split <;> rfl

theorem ensure_styles (x : K × K) (p : Pic K) : (ensure x p).edgeStyles = p.edgeStyles ∧ (ensure x p).edgeLayer = p.edgeLayer := by
  rw [ensure]
  split <;> exact ⟨rfl, rfl⟩

theorem addPoints_styles (l : List (K × K)) : ∀ p : Pic K, (addPoints l p).2.edgeStyles = p.edgeStyles ∧ (addPoints l p).2.edgeLayer = p.edgeLayer := by
  induction l with
  | nil => intro p; exact ⟨rfl, rfl⟩
  | cons x l ih => intro p; exact ih (addNode x false "" "" p).2

theorem drawWire_styled (st : Style K) (hu : st.useTikzstyles = true) (a b : K × K) (bo bi : Bool) (s c : String) {p : Pic K} (h : Styled p) :
    Styled (drawWire st a b bo bi s c p) := by
  intro e he
  simp only [drawWire, hu, if_true, ensure_styles, edges_addStyle, List.mem_append, List.mem_singleton] at he ⊢
  rcases he with he | rfl
  · obtain ⟨s', h1, h2⟩ := h e he
    exact ⟨s', sub_addStyle _ _ _ h1, h2⟩
  · exact ⟨_, mem_addStyle _ _, by simp [EdgeLine.options, wireOptions, hu]⟩

theorem fold_styled {A : Type} (f : Pic K → A → Pic K) (hf : ∀ p a, Styled p → Styled (f p a)) (l : List A) : ∀ p, Styled p → Styled (l.foldl f p) := by
  induction l with
  | nil => intro p h; exact h
  | cons a l ih => intro p h; exact ih _ (hf p a h)

theorem step_styled (st : Style K) (hu : st.useTikzstyles = true) (c : Cmd K) {p q : Pic K} (h : Styled p) (hq : step st p c = .ok q) : Styled q := by
  cases c with
  | node x t o => injection hq with hq; subst hq; exact h
  | text t x l top f => injection hq with hq; subst hq; exact h
  | polygon pts c =>
    simp only [step, drawPolygon] at hq
    split at hq
    · cases hq
    · injection hq with hq
      subst hq
      intro e he
      simp only [hu, if_true, edges_addStyle, addPoints_styles, List.mem_append, List.mem_singleton] at he ⊢
      rcases he with he | rfl
      · obtain ⟨s', h1, h2⟩ := h e he
        exact ⟨s', sub_addStyle _ _ _ (by rw [(addPoints_styles pts p).1]; exact h1), h2⟩
      · exact ⟨_, mem_addStyle _ _, rfl⟩
  | wire a b bo bi s c => injection hq with hq; subst hq; exact drawWire_styled st hu a b bo bi s c h
  | spiders l =>
    injection hq with hq
    subst hq
    refine fold_styled _ (fun p s hp => ?_) l p h
    simp only [drawSpider]
    refine fold_styled _ (fun p w hp => drawWire_styled st hu _ _ _ _ _ _ hp) _ _ (fold_styled _ (fun p w hp => drawWire_styled st hu _ _ _ _ _ _ hp) _ _ ?_)
    split <;> exact hp

theorem run_styled (st : Style K) (hu : st.useTikzstyles = true) (cs : List (Cmd K)) : ∀ {p q : Pic K}, Styled p → run st cs p = .ok q → Styled q := by
  induction cs with
  | nil => intro p q h hq; injection hq with hq; subst hq; exact h
  | cons c cs ih =>
    intro p q h hq
    rw [run] at hq
    split at hq
    · cases hq
    · next r hr => exact ih (step_styled st hu c h hr) hq

/-- C116: with TikZ styles, every line of the picture refers to a style that the picture defines. -/
theorem C116_defined (st : Style K) (hu : st.useTikzstyles = true) (cs : List (Cmd K)) (p : Pic K) (h : run st cs {} = .ok p) :
    ∀ e ∈ p.edgeLayer, ∃ s ∈ p.edgeStyles, e.options = "style=" ++ s.name :=
  run_styled st hu cs (fun e he => by cases he) h

/-- Two wires of one color. -/
example : ∃ p : Pic Int, run (sampleStyle true) [.wire (0, 0) (1, 1) false false "" "#000000", .wire (0, 0) (2, 1) false false "" "#FF0000"] {} = .ok p ∧
    p.edgeLayer.length = 2 ∧ p.edgeStyles.map StyleLine.name = ["black_wire", "FF0000_wire"] := by
  refine ⟨_, rfl, rfl, ?_⟩
  decide +kernel

end Tikz
end Lambeq
