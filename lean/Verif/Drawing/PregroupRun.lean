import Verif.Drawing.PregroupStep
import Verif.Rewrite.RemoveSwapsProps

namespace Lambeq
namespace Draw
set_option linter.unusedSectionVars false
set_option linter.unusedSimpArgs false

/-! ## The boxes below the words -/

theorem skel_congr {ty : Ty} {ls : List GLayer} {k : Nat} {D D' : Drawable Ob Box} {sc sc' : List Nat} (S : Skel ty ls k D sc)
    (hb : D'.boxes.map (fun b => (b.obj, b.dom, b.cod)) = D.boxes.map (fun b => (b.obj, b.dom, b.cod))) (he : D'.ends.map (fun e => (e.kind, e.obj)) = D.ends.map (fun e => (e.kind, e.obj)))
    (hw : D'.wires = D.wires) (hs : sc' = sc) : Skel ty ls k D' sc' := by
  subst hs
  exact ⟨hb.trans S.boxes, he.trans S.ends, hw.trans S.wires, S.scan⟩

/-- The two drawings differ by added parts, where the added boxes have two inputs. -/
def Grown (s s' : PState) : Prop :=
  ∃ B E, s'.D.boxes = s.D.boxes ++ B ∧ s'.D.ends = s.D.ends ++ E ∧ ∀ b ∈ B, b.dom ≠ []

theorem Grown.refl (s : PState) : Grown s s := ⟨[], [], by simp, by simp, by simp⟩
theorem Grown.trans {s t u : PState} (h : Grown s t) (k : Grown t u) : Grown s u := by
  obtain ⟨B, E, h1, h2, h3⟩ := h
  obtain ⟨B', E', k1, k2, k3⟩ := k
  refine ⟨B ++ B', E ++ E', by rw [k1, h1, List.append_assoc], by rw [k2, h2, List.append_assoc], ?_⟩
  intro b hb
  rcases List.mem_append.1 hb with hb | hb
  · exact h3 b hb
  · exact k3 b hb

theorem getD_mapIdx {l : List ℚ} {f : Nat → ℚ → ℚ} {i : Nat} (h : i < l.length) : (l.mapIdx f).getD i 0 = f i (l.getD i 0) := by
  rw [List.getD_eq_getElem _ _ (by simpa using h), List.getD_eq_getElem _ _ h]; simp

theorem place_spec {N : Nat} {X : Nat → ℚ} {L : List ℚ} {s : PState} (I : PInv N X L s) {A R : List Nat} {a b : Nat} (hs : s.scan = A ++ a :: b :: R)
    {all : List GLayer} {k : Nat} {l : GLayer} (hl : all[k]? = some l) (hA : A.length = l.left.length) (S : Skel [] all k s.D s.scan) (hM : DRewrite.Morphic l) :
    ∃ s' L', addGrammar s l = .ok s' ∧ PInv N X L' s' ∧ Skel [] all (k + 1) s'.D s'.scan ∧ s'.scan.length = A.length + l.box.cod.length + R.length ∧ Grown s s' := by
  have ha : a < s.D.ends.length := I.slt a (by rw [hs]; simp)
  have hb : b < s.D.ends.length := I.slt b (by rw [hs]; simp)
  have hta : s.tr a < N := I.tlt a ha
  have htb : s.tr b < N := I.tlt b hb
  have hab : s.tr a < s.tr b := by
    have := I.sorted
    rw [hs] at this
    simp only [List.map_append, List.map_cons, List.pairwise_append, List.pairwise_cons, List.mem_cons] at this
    exact this.2.1.1 _ (.inl rfl)
  have g0 : s.scan[l.left.length]? = some a := by rw [hs, ← hA]; simp
  have g1 : s.scan[l.left.length + 1]? = some b := by
    rw [hs, ← hA, List.getElem?_append_right (by omega)]; simp
  have hr : (s.depth.drop (s.tracks.getD a 0)).take (s.tracks.getD b 0 + 1 - s.tracks.getD a 0) ≠ [] := by
    intro h
    have := congrArg List.length h
    simp only [List.length_take, List.length_drop, List.length_nil] at this
    have := I.dlen
    simp only [PState.tr] at hta htb hab
    omega
  have hy : ∀ t, s.tr a ≤ t → t ≤ s.tr b → minOf ((s.depth.drop (s.tracks.getD a 0)).take (s.tracks.getD b 0 + 1 - s.tracks.getD a 0)) ≤ s.dep t := by
    intro t h1 h2
    have hd := I.dlen
    simp only [PState.tr] at h1 h2 hta htb
    refine minOf_le _ ?_
    rw [PState.dep, List.getD_eq_getElem s.depth _ (by omega), List.mem_iff_getElem]
    refine ⟨t - s.tracks.getD a 0, by simp only [List.length_take, List.length_drop]; omega, ?_⟩
    rw [List.getElem_take, List.getElem_drop]
    congr 1; omega
  have hd : ∀ t < N, (s.depth.mapIdx (fun i v => if s.tracks.getD a 0 ≤ i ∧ i ≤ s.tracks.getD b 0 then
      minOf ((s.depth.drop (s.tracks.getD a 0)).take (s.tracks.getD b 0 + 1 - s.tracks.getD a 0)) - 3 / 4 else v)).getD t 0 =
      if s.tr a ≤ t ∧ t ≤ s.tr b then minOf ((s.depth.drop (s.tracks.getD a 0)).take (s.tracks.getD b 0 + 1 - s.tracks.getD a 0)) - 3 / 4 else s.dep t := by
    intro t ht
    rw [getD_mapIdx (by rw [I.dlen]; exact ht)]; rfl
  have S0 : Skel [] all k s.D (A ++ [a, b] ++ R) := by
    have := S
    rw [hs] at this
    simpa using this
  obtain ⟨y, hyd⟩ : ∃ y, minOf ((s.depth.drop (s.tracks.getD a 0)).take (s.tracks.getD b 0 + 1 - s.tracks.getD a 0)) = y := ⟨_, rfl⟩
  rw [hyd] at hy hd
  rcases hM with ⟨u, v, r, hbox⟩ | ⟨u, v, hbox⟩
  · have Sk := addBox_skel hl S0 hA (by rw [hbox]; rfl) (fun _ => false) 0 0
    obtain ⟨s', e0, e1, e2, e3, e4, e5, e6⟩ : ∃ s', addGrammar s l = .ok s' ∧
        s'.D.boxes = s.D.boxes ++ [⟨l.box, (s.D.xAt a + s.D.xAt b) / 2, y - 3 / 4, [s.D.ends.length, s.D.ends.length + 1], []⟩] ∧
        s'.D.ends = s.D.ends ++ [⟨.dom, u, s.D.xAt a, y - 3 / 4 / 2⟩, ⟨.dom, v, s.D.xAt b, y - 3 / 4 / 2⟩] ∧
        s'.D.wires = s.D.wires ++ [(a, s.D.ends.length), (b, s.D.ends.length + 1)] ∧
        s'.tracks = s.tracks ++ [s.tr a, s.tr b] ∧ s'.scan = A ++ R ∧
        s'.depth = s.depth.mapIdx (fun i v => if s.tracks.getD a 0 ≤ i ∧ i ≤ s.tracks.getD b 0 then y - 3 / 4 else v) := by
      simp only [addGrammar, g0, g1, hbox, Box.dom, placeBox]
      rw [if_neg hr]
      simp only [hyd]
      refine ⟨_, rfl, rfl, rfl, rfl, rfl, ?_, rfl⟩
      simp only [hs, ← hA]
      simp
    refine ⟨s', _, e0, step_inv (A := A) (R := R) (a := a) (b := b) (y := y) (C := []) I rfl hs (.inl rfl) e2 rfl e4 e1 rfl rfl rfl rfl e3 (by rw [e5]; simp) ?_ hy ?_, ?_, ?_, ?_⟩
    · rw [e6, List.length_mapIdx, I.dlen]
    · rw [← e6] at hd; exact hd
    · refine skel_congr Sk ?_ ?_ ?_ ?_
      · simp [e1, addBox, hbox, BoxSig.dom, BoxSig.cod, Box.dom, Box.cod, List.range']
      · simp [e2, addBox, hbox, BoxSig.dom, BoxSig.cod, Box.dom, Box.cod, domEnds, codEnds]
      · simp [e3, addBox, hbox, BoxSig.dom, BoxSig.cod, Box.dom, Box.cod, List.range']
      · simp [e5, addBox, hbox, BoxSig.dom, BoxSig.cod, Box.dom, Box.cod]
    · simp [e5, hbox, Box.cod]
    · exact ⟨_, _, e1, e2, by simp⟩
  · have Sk := addBox_skel hl S0 hA (by rw [hbox]; rfl) (fun _ => false) 0 0
    obtain ⟨s', e0, e1, e2, e3, e4, e5, e6⟩ : ∃ s', addGrammar s l = .ok s' ∧
        s'.D.boxes = s.D.boxes ++ [⟨l.box, (s.D.xAt a + s.D.xAt b) / 2, y - 3 / 4, [s.D.ends.length, s.D.ends.length + 1], [s.D.ends.length + 2, s.D.ends.length + 3]⟩] ∧
        s'.D.ends = s.D.ends ++ [⟨.dom, u, s.D.xAt a, y - 3 / 4 / 2⟩, ⟨.dom, v, s.D.xAt b, y - 3 / 4 / 2⟩, ⟨.cod, v, s.D.xAt a, y - 3 / 4⟩, ⟨.cod, u, s.D.xAt b, y - 3 / 4⟩] ∧
        s'.D.wires = s.D.wires ++ [(a, s.D.ends.length), (b, s.D.ends.length + 1)] ∧
        s'.tracks = s.tracks ++ [s.tr a, s.tr b, s.tr a, s.tr b] ∧ s'.scan = A ++ [s.D.ends.length + 2, s.D.ends.length + 3] ++ R ∧
        s'.depth = s.depth.mapIdx (fun i v => if s.tracks.getD a 0 ≤ i ∧ i ≤ s.tracks.getD b 0 then y - 3 / 4 else v) := by
      simp only [addGrammar, g0, g1, hbox, Box.dom, placeBox]
      rw [if_neg hr]
      simp only [hyd]
      refine ⟨_, rfl, rfl, ?_, rfl, ?_, ?_, rfl⟩
      · simp [vspace]
      · simp [PState.tr]
      · simp only [hs, ← hA]
        rw [List.set_append_right _ _ (by omega), List.set_append_right _ _ (by omega)]; simp
    have hCn : ([s.D.ends.length + 2, s.D.ends.length + 3] : List Nat) ≠ [] := by simp
    refine ⟨s', _, e0, step_inv (A := A) (R := R) (a := a) (b := b) (y := y) (C := [s.D.ends.length + 2, s.D.ends.length + 3]) I rfl hs (.inr rfl) e2 (by rw [if_neg hCn]; rfl)
      (by rw [if_neg hCn]; exact e4) e1 rfl rfl rfl rfl e3 e5 ?_ hy ?_, ?_, ?_, ?_⟩
    · rw [e6, List.length_mapIdx, I.dlen]
    · rw [← e6] at hd; exact hd
    · refine skel_congr Sk ?_ ?_ ?_ ?_
      · simp [e1, addBox, hbox, BoxSig.dom, BoxSig.cod, Box.dom, Box.cod, List.range']
      · simp [e2, addBox, hbox, BoxSig.dom, BoxSig.cod, Box.dom, Box.cod, domEnds, codEnds]
      · simp [e3, addBox, hbox, BoxSig.dom, BoxSig.cod, Box.dom, Box.cod, List.range']
      · simp [e5, addBox, hbox, BoxSig.dom, BoxSig.cod, Box.dom, Box.cod, List.range']
    · simp [e5, hbox, Box.cod]; omega
    · exact ⟨_, _, e1, e2, by simp⟩

theorem run_spec {N : Nat} {X : Nat → ℚ} {all : List GLayer} : ∀ (ls : List GLayer) (a c : Ty) (k : Nat) (L : List ℚ) (s : PState), k ≤ all.length → all.drop k = ls → Diagram.Chain a ls c →
    (∀ l ∈ ls, DRewrite.Morphic l) → s.scan.length = a.length → PInv N X L s → Skel [] all k s.D s.scan →
    ∃ s' L', addGrammars s ls = .ok s' ∧ PInv N X L' s' ∧ Skel [] all all.length s'.D s'.scan ∧ s'.scan.length = c.length ∧ Grown s s' := by
  intro ls
  induction ls with
  | nil =>
    intro a c k L s hle hk hch _ hl I S
    have hk' : all.length ≤ k := by simpa using hk
    have h : k = all.length := by omega
    subst h
    exact ⟨s, L, rfl, I, S, by rw [hl, hch], Grown.refl s⟩
  | cons l ls ih =>
    intro a c k L s hle hk hch hM hl I S
    obtain ⟨rfl, hch⟩ := hch
    have hlt : k < all.length := by
      by_contra h
      rw [List.drop_eq_nil_of_le (by omega)] at hk
      exact absurd hk (by simp)
    have hget : all[k]? = some l := by
      have := congrArg (fun z => z[0]?) hk
      simpa using this
    have hdrop : all.drop (k + 1) = ls := by
      rw [← List.drop_drop, hk]; simp
    obtain ⟨A, M, R, hs, hA, hMl, hR⟩ := split_scan hl
    have m2 : M.length = 2 := by
      rw [hMl]
      rcases hM l (by simp) with ⟨u, v, r, hbox⟩ | ⟨u, v, hbox⟩ <;> rw [hbox] <;> rfl
    obtain ⟨p, q, rfl⟩ := List.length_eq_two.1 m2
    obtain ⟨s', L', e1, e2, e3, e4, e5⟩ := place_spec (A := A) (R := R) (a := p) (b := q) I (by rw [hs]; simp) hget hA S (hM l (by simp))
    obtain ⟨t, L'', f1, f2, f3, f4, f5⟩ := ih l.cod c (k + 1) L' s' hlt hdrop hch (fun m hm => hM m (by simp [hm])) (by rw [e4, Layer.cod]; simp [BoxSig.cod, hA, hR]; omega) e2 e3
    exact ⟨t, L'', by simp only [addGrammars, e1, f1], f2, f3, f4, e5.trans f5⟩

end Draw
end Lambeq
