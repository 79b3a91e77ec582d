import Verif.Rewrite.RemoveCupsTotal

/-!
# Diagram rewriting: C57 (cups), C58 (codomains)
-/

namespace Lambeq
open Diagram GDiagram
set_option linter.unusedSimpArgs false
set_option linter.unusedVariables false

namespace DRewrite

section
variable {R : Type} [CommSemiring R] {I : Interp Ob Box R}

theorem removeCupsPass_account (hI : Compact I) {d r : GDiagram} (hd : d.WT) (hb : ∀ l ∈ d.layers, Good I l.box)
    (hne : ∀ l ∈ d.layers, l.box.dom = [] → baseName l.box ≠ cupToken) (h : removeCupsPass d = .ok r) :
    (names r.boxes).Perm (d.boxes.flatMap boxNames) ∧ bends r.boxes ≤ (d.boxes.map boxBends).sum ∧
      ∀ P, Named P d.boxes → Named P r.boxes := by
  unfold removeCupsPass at h
  simp only [Functor.bind_ok_iff] at h
  obtain ⟨ds, h1, h2⟩ := h
  injection h2 with h2
  rw [tensorN_cons, tensor_id_nil_left] at h2
  subst h2
  have key : ∀ (ls : List GLayer) (pre : GDiagram) (es : List GDiagram), (∀ l ∈ ls, Good I l.box) →
      (∀ l ∈ ls, l.box.dom = [] → baseName l.box ≠ cupToken) →
      pre.WT → Chain pre.cod ls d.cod → Inv I es pre →
      ((ls.map (·.box)).zip (ls.map (·.left.length))).foldlM removeStep es = .ok ds →
      (names (ds.flatMap Diagram.boxes)).Perm (names (es.flatMap Diagram.boxes) ++ (ls.map (·.box)).flatMap boxNames) ∧
      bends (ds.flatMap Diagram.boxes) ≤ bends (es.flatMap Diagram.boxes) + ((ls.map (·.box)).map boxBends).sum ∧
      ∀ P, Named P (es.flatMap Diagram.boxes) → Named P (ls.map (·.box)) → Named P (ds.flatMap Diagram.boxes) := by
    intro ls
    induction ls with
    | nil =>
      intro pre es _ _ wp hc hi hf
      simp at hf
      injection hf with hf
      subst hf
      exact ⟨by simp, by simp, fun _ h _ => h⟩
    | cons l ls ih =>
      intro pre es hg hne wp hc hi hf
      obtain ⟨hc1, hc2⟩ := hc
      simp only [List.map_cons, List.zip_cons_cons, List.foldlM_cons, Functor.bind_ok_iff] at hf
      obtain ⟨es', s1, s2⟩ := hf
      have hinv := removeStep_spec hI hi wp hc1.symm (hg l (by simp)) s1 (hne l (by simp))
      obtain ⟨a1, a2, a3⟩ := removeStep_account hi.wf s1 (fun hd => name_ne _ (hne l (by simp) hd))
      obtain ⟨b1, b2, b3⟩ := ih (Diagram.comp pre (ofLayer l)) es' (fun m hm => hg m (by simp [hm])) (fun m hm => hne m (by simp [hm]))
        (comp_wt wp (ofLayer_wt l) hc1.symm) hc2 hinv s2
      refine ⟨?_, ?_, fun P p1 p2 => ?_⟩
      · refine b1.trans ((List.Perm.append_right _ a1).trans ?_)
        simp
      · simp only [List.map_cons, List.sum_cons]
        omega
      · rw [List.map_cons, ← List.singleton_append, Named.append] at p2
        exact b3 P (a3 P p1 p2.1) p2.2
  have := key d.layers (Diagram.id d.dom) [Diagram.id d.dom] hb hne (WT.id _) hd
    ⟨by simp only [List.mem_singleton]; rintro g rfl; exact wf_id _, by simp only [List.mem_singleton]; rintro g rfl; exact noTok_id _,
      by rw [tensorN_cons, tensorN_nil, tensor_id_nil_right]; exact .refl _⟩ h1
  rw [tensorN_boxes]
  refine ⟨by simpa [Diagram.boxes, Diagram.id, names, bends] using this.1, by simpa [Diagram.boxes, Diagram.id, names, bends] using this.2.1,
    fun P hP => this.2.2 P (by simp [Diagram.boxes, Diagram.id, Named]) hP⟩

end

theorem compressStep_named {P : String → Prop} (ls : List GLayer) (h : Named P (ls.map (·.box))) : Named P ((lcAll ls).reverse.map (·.box)) := by
  have key : ∀ (ls acc : List GLayer), Named P (ls.map (·.box)) → Named P (acc.map (·.box)) → Named P ((ls.foldl lcStep acc).map (·.box)) := by
    intro ls
    induction ls with
    | nil => intro acc _ h; exact h
    | cons l ls ih =>
      intro acc h1 h2
      rw [List.map_cons, ← List.singleton_append, Named.append] at h1
      refine ih _ h1.2 ?_
      cases acc with
      | nil => exact h1.1
      | cons p rest =>
        rw [List.map_cons, ← List.singleton_append, Named.append] at h2
        rw [lcStep]
        split
        · intro b hb
          rcases List.mem_cons.1 hb with rfl | hb
          · have hl := (h1.1 l.box (by simp)).2
            have hp := (h2.1 p.box (by simp)).2
            refine ⟨trivial, fun o ho => ?_⟩
            simp only [Box.dom, Box.cod, List.append_nil, List.mem_append] at ho
            rcases ho with (ho | ho) | ho
            · exact hl o (List.mem_append_left _ (List.mem_of_mem_take ho))
            · exact hp o (List.mem_append_left _ ho)
            · exact hl o (List.mem_append_left _ (List.mem_of_mem_drop ho))
          · exact h2.2 b hb
        · intro b hb
          rcases List.mem_cons.1 hb with rfl | hb
          · exact h1.1 _ (by simp)
          · rcases List.mem_cons.1 hb with rfl | hb
            · exact h2.1 _ (by simp)
            · exact h2.2 b hb
  intro b hb
  exact key ls [] h (by simp [Named]) b (by rw [lcAll] at hb; simpa using hb)

theorem plain_contrib {bs : List Box} (h : ∀ b ∈ bs, baseName b ≠ cupToken) :
    bs.flatMap boxNames = names bs ∧ (bs.map boxBends).sum = bends bs := by
  induction bs with
  | nil => exact ⟨rfl, rfl⟩
  | cons b bs ih =>
    obtain ⟨h1, h2⟩ := ih (fun c hc => h c (by simp [hc]))
    have hn := name_ne b (h b (by simp))
    have e : b :: bs = [b] ++ bs := rfl
    constructor
    · rw [List.flatMap_cons, h1, boxNames, if_neg hn]
      conv_rhs => rw [e, names_append]
    · rw [List.map_cons, List.sum_cons, h2, boxBends, if_neg hn]
      conv_rhs => rw [e, bends_append]

theorem lcStep_account (acc : List GLayer) (l : GLayer) (hl : baseName l.box ≠ cupToken) :
    ((lcStep acc l).reverse.flatMap (fun m => boxNames m.box)) = acc.reverse.flatMap (fun m => boxNames m.box) ++ boxNames l.box ∧
    ((lcStep acc l).map (fun m => boxBends m.box)).sum = (acc.map (fun m => boxBends m.box)).sum + boxBends l.box := by
  cases acc with
  | nil => simp [lcStep]
  | cons p rest =>
    rw [lcStep]
    split
    · rename_i h
      simp only [Bool.and_eq_true] at h
      obtain ⟨a, b, r1, e1⟩ := isCup_cases h.1.1
      obtain ⟨x, y, r2, e2⟩ := isCup_cases h.1.2
      simp only [e1, e2]
      have n1 : boxNames (.cup a b r1) = [] := rfl
      have n2 : boxNames (.cup x y r2) = [] := rfl
      have b1 : boxBends (.cup a b r1) = 1 := rfl
      have b2 : boxBends (.cup x y r2) = 1 := rfl
      have n3 : boxNames (.gen cupToken ((Box.cup a b r1).dom.take 1 ++ (Box.cup x y r2).dom ++ (Box.cup a b r1).dom.drop 1) [] 0) = [] := by
        simp [boxNames, Rewrite.boxName]
      have b3 : boxBends (.gen cupToken ((Box.cup a b r1).dom.take 1 ++ (Box.cup x y r2).dom ++ (Box.cup a b r1).dom.drop 1) [] 0) = 2 := by
        simp [boxBends, Rewrite.boxName, Box.dom]
      simp only [List.reverse_cons, List.flatMap_append, List.flatMap_cons, List.flatMap_nil, List.map_cons, List.sum_cons, e2, n1, n2, n3,
        b1, b2, b3]
      exact ⟨by simp, by omega⟩
    · simp
      omega

theorem lcAll_account (ls : List GLayer) (h : ∀ l ∈ ls, baseName l.box ≠ cupToken) :
    (lcAll ls).reverse.flatMap (fun m => boxNames m.box) = names (ls.map (·.box)) ∧
    ((lcAll ls).map (fun m => boxBends m.box)).sum = bends (ls.map (·.box)) := by
  have key : ∀ (ls acc : List GLayer), (∀ l ∈ ls, baseName l.box ≠ cupToken) →
      (ls.foldl lcStep acc).reverse.flatMap (fun m => boxNames m.box)
        = acc.reverse.flatMap (fun m => boxNames m.box) ++ (ls.map (·.box)).flatMap boxNames ∧
      ((ls.foldl lcStep acc).map (fun m => boxBends m.box)).sum
        = (acc.map (fun m => boxBends m.box)).sum + ((ls.map (·.box)).map boxBends).sum := by
    intro ls
    induction ls with
    | nil => intro acc _; simp
    | cons l ls ih =>
      intro acc h
      obtain ⟨a1, a2⟩ := lcStep_account acc l (h l (by simp))
      obtain ⟨b1, b2⟩ := ih (lcStep acc l) (fun m hm => h m (by simp [hm]))
      rw [List.foldl_cons]
      constructor
      · rw [b1, a1]; simp
      · rw [b2, a2]; simp; omega
  obtain ⟨k1, k2⟩ := key ls [] h
  obtain ⟨p1, p2⟩ := plain_contrib (bs := ls.map (·.box)) (by
    intro b hb
    obtain ⟨l, hl, rfl⟩ := List.mem_map.1 hb
    exact h l hl)
  rw [lcAll, k1, k2, p1, p2]
  simp

theorem removeCups_account {d r : GDiagram} (hd : WF d) (ht : NoTok d) (h : removeCups d = .ok r) :
    (names r.boxes).Perm (names d.boxes) ∧ bends r.boxes ≤ bends d.boxes ∧ ∀ P, Named P d.boxes → Named P r.boxes := by
  have hI := unit_compact
  unfold removeCups at h
  simp only [Functor.bind_ok_iff] at h
  obtain ⟨a, h1, b, h2, h3⟩ := h
  have hg1 : ∀ l ∈ d.layers, Good unitInterp l.box := fun l hl => ⟨hd.2 l hl, .inl (ht _ (List.mem_map.2 ⟨l, hl, rfl⟩))⟩
  have hg2 : ∀ l ∈ d.layers, l.box.dom = [] → baseName l.box ≠ cupToken := fun l hl _ => ht _ (List.mem_map.2 ⟨l, hl, rfl⟩)
  obtain ⟨a1, a2, a3⟩ := removeCupsPass_spec hI hd.1 hg1 hg2 h1
  obtain ⟨p1, p2, p3⟩ := removeCupsPass_account hI hd.1 hg1 hg2 h1
  obtain ⟨e, c1, c2, c3, c4, c5, c6⟩ := compressCups_spec hI a1 a2
  rw [compressCups_eq] at c1 h2
  rw [c1] at h2
  injection h2 with h2
  subst h2
  obtain ⟨q1, q2, q3⟩ := removeCupsPass_account (tokInterp_compact hI) c2 (fun l hl => (c5 l hl).1) (fun l hl => (c5 l hl).2) h3
  have hne : ∀ l ∈ a.layers, baseName l.box ≠ cupToken := fun l hl => a2 _ (List.mem_map.2 ⟨l, hl, rfl⟩)
  obtain ⟨l1, l2⟩ := lcAll_account a.layers hne
  have hlay : e.boxes = (lcAll a.layers).reverse.map (·.box) := by
    have hbo : ∀ (bos : List (Box × Nat)) (pre e : GDiagram),
        bos.foldlM (fun acc bo => thenAt acc (ofBox bo.1) (bo.2 : Int)) pre = .ok e → e.boxes = pre.boxes ++ bos.map (·.1) := by
      intro bos
      induction bos with
      | nil => intro pre e h; simp at h; injection h with h; subst h; simp
      | cons x xs ih =>
        intro pre e h
        simp only [List.foldlM_cons, Functor.bind_ok_iff] at h
        obtain ⟨m, hm1, hm2⟩ := h
        obtain ⟨_, rfl⟩ := thenAt_ok_iff.1 hm1
        rw [ih _ _ hm2]
        simp [Diagram.boxes, ofBox, Layer.extend]
    have := hbo _ _ _ c1
    rw [this]
    simp [Diagram.boxes, Diagram.id, Function.comp_def, bo]
  have e1 : e.boxes.flatMap boxNames = names a.boxes := by
    rw [hlay, List.flatMap_map]; exact l1
  have e2 : (e.boxes.map boxBends).sum = bends a.boxes := by
    rw [hlay, List.map_map, List.map_reverse, List.sum_reverse]; exact l2
  obtain ⟨m1, m2⟩ := plain_contrib (bs := d.boxes) ht
  rw [e1] at q1
  rw [e2] at q2
  rw [m1] at p1
  rw [m2] at p2
  refine ⟨q1.trans p1, q2.trans p2, fun P hP => q3 P ?_⟩
  rw [hlay]
  exact compressStep_named _ (p3 P hP)


/-! ## Theorems -/

/-- When no cups are merged the second pass repeats the first, so it cannot fail either. -/
theorem removeCups_total_few {d : GDiagram} (hd : WF d) (ht : NoTok d) (h1 : bends d.boxes ≤ 1) : ∃ r, removeCups d = .ok r := by
  obtain ⟨a, ha⟩ := removeCupsPass_total hd ht
  have hg1 : ∀ l ∈ d.layers, Good unitInterp l.box := fun l hl => ⟨hd.2 l hl, .inl (ht _ (List.mem_map.2 ⟨l, hl, rfl⟩))⟩
  have hg2 : ∀ l ∈ d.layers, l.box.dom = [] → baseName l.box ≠ cupToken := fun l hl _ => ht _ (List.mem_map.2 ⟨l, hl, rfl⟩)
  obtain ⟨a1, a2, a3⟩ := removeCupsPass_spec unit_compact hd.1 hg1 hg2 ha
  obtain ⟨p1, p2, p3⟩ := removeCupsPass_account unit_compact hd.1 hg1 hg2 ha
  rw [(plain_contrib (bs := d.boxes) ht).2] at p2
  have hbend : bends (a.layers.map (·.box)) ≤ 1 := Nat.le_trans p2 h1
  have key : ∀ (ls acc : List GLayer), bends ((acc ++ ls).map (·.box)) ≤ 1 → ls.foldl lcStep acc = ls.reverse ++ acc := by
    intro ls
    induction ls with
    | nil => intro acc _; rfl
    | cons l ls ih =>
      intro acc hb
      have hstep : lcStep acc l = l :: acc := by
        cases acc with
        | nil => rfl
        | cons p rest =>
          rw [lcStep, if_neg]
          intro hc
          simp only [Bool.and_eq_true] at hc
          obtain ⟨x, y, r1, e1⟩ := isCup_cases hc.1.1
          obtain ⟨x', y', r2, e2⟩ := isCup_cases hc.1.2
          simp only [bends, List.map_append, List.map_cons, List.countP_append, List.countP_cons, e1, e2, isBend, if_true] at hb
          omega
      rw [List.foldl_cons, hstep, ih (l :: acc)]
      · simp
      · simp only [bends, List.map_append, List.map_cons, List.countP_append, List.countP_cons] at hb ⊢
        omega
  have hlc : (lcAll a.layers).reverse = a.layers := by
    rw [lcAll, key a.layers [] (by simpa using hbend)]; simp
  have hcomp : compressCups a = .ok a := by
    rw [compressCups_eq, hlc]
    have := rebuild (pre := Diagram.id a.dom) (ls := a.layers) (c := a.cod) a1.1
    simpa [Diagram.id] using this
  obtain ⟨r, hr⟩ := removeCupsPass_total a1 a2
  refine ⟨r, ?_⟩
  unfold removeCups
  rw [ha, ok_bind, hcomp, ok_bind, hr]

/-- **C57.** `RemoveCupsRewriter`, on a well-formed diagram none of whose boxes uses the reserved name `**CUP**`:
whenever a diagram is returned, it is well typed with the same domain and codomain, does not contain the reserved
name, consists of the same boxes (other than cups and caps, and up to daggers and rotations: each word occurs as often as before, with its
original type), has no more cups and caps than the input, introduces no new names of atomic types (and wraps only plain boxes and words in daggers, if the input does), and denotes the same linear map under every compact interpretation, in particular for every
choice of dimensions and tensors. A diagram is returned whenever the input has at most one cup or cap.
Missing from the full statement: that a diagram is always returned, which is false (`C57_refuted_raises`). -/
theorem C57_remove_cups_partial (d : GDiagram) (hd : d.WT) (hv : d.Valid) (ht : ∀ b ∈ d.boxes, baseName b ≠ "**CUP**") :
    (∀ r, removeCups d = .ok r → r.WT ∧ r.Valid ∧ r.dom = d.dom ∧ r.cod = d.cod
      ∧ (∀ b ∈ r.boxes, baseName b ≠ "**CUP**") ∧ (names r.boxes).Perm (names d.boxes) ∧ bends r.boxes ≤ bends d.boxes
      ∧ (∀ P, Named P d.boxes → Named P r.boxes)
      ∧ (∀ {R : Type} [CommSemiring R] (I : Interp Ob Box R), Compact I → I.SameMap d r)
      ∧ ∀ {R : Type} [CommSemiring R] (dim : String → Nat) (T : String → Ty → Ty → List Nat → List Nat → R),
          (stdInterp dim T).SameMap d r)
    ∧ (bends d.boxes ≤ 1 → ∃ r, removeCups d = .ok r) := by
  refine ⟨?_, removeCups_total_few ⟨hd, hv⟩ ht⟩
  intro r h
  obtain ⟨h1, h2, h3⟩ := removeCups_spec unit_compact ⟨hd, hv⟩ ht h
  obtain ⟨k1, k2, k3⟩ := removeCups_account ⟨hd, hv⟩ ht h
  exact ⟨h1.1, h1.2, h3.1.symm, h3.2.1.symm, h2, k1, k2, k3,
    fun I hI => (removeCups_spec hI ⟨hd, hv⟩ ht h).2.2,
    fun dim T => (removeCups_spec (stdInterp_compact T dim) ⟨hd, hv⟩ ht h).2.2⟩

/-- Non-vacuity: "John sleeps" meets the hypotheses, and its cup is removed. -/
example :
    let n : Ob := ⟨"n", 0⟩; let nr : Ob := ⟨"n", 1⟩; let s : Ob := ⟨"s", 0⟩
    let d : GDiagram := ⟨[], [s], [⟨[], .word "John" [n] 0, []⟩, ⟨[n], .word "sleeps" [nr, s] 0, []⟩, ⟨[], .cup n nr false, [s]⟩]⟩
    d.WT ∧ d.Valid ∧ (∀ b ∈ d.boxes, baseName b ≠ "**CUP**") ∧ bends d.boxes = 1 ∧
      removeCups d = .ok ⟨[], [s], [⟨[], .word "sleeps" [nr, s] 0, []⟩, ⟨[], .daggered (.word "John" [nr] 1), [s]⟩]⟩ := by
  refine ⟨by decide, ?_, by decide, by decide, by decide +kernel⟩
  intro l hl
  simp only [List.mem_cons, List.not_mem_nil, or_false] at hl
  rcases hl with rfl | rfl | rfl <;> simp [Box.Valid]; decide

/-- **C57, refuted in general.** For the pregroup diagram of the words `W0 : a ⊗ w`, `W1 : x ⊗ y ⊗ z`,
`W2 : z.r ⊗ y.r ⊗ x.r ⊗ w.r ⊗ b` with four nested cups, the rewriter raises `ValueError`: two of the cups between
`W1` and `W2` are merged into a token that no longer lies inside one word. -/
theorem C57_refuted_raises : ∃ d : GDiagram, d.WT ∧ d.Valid ∧ (∀ b ∈ d.boxes, baseName b ≠ "**CUP**") ∧
    isPregroup d = true ∧ (removeCups d).map (fun _ => ()) = .error .valueError := by
  let o := fun (s : String) (z : Int) => (⟨s, z⟩ : Ob)
  refine ⟨⟨[], [o "a" 0, o "b" 0], [⟨[], .word "W0" [o "a" 0, o "w" 0] 0, []⟩,
    ⟨[o "a" 0, o "w" 0], .word "W1" [o "x" 0, o "y" 0, o "z" 0] 0, []⟩,
    ⟨[o "a" 0, o "w" 0, o "x" 0, o "y" 0, o "z" 0], .word "W2" [o "z" 1, o "y" 1, o "x" 1, o "w" 1, o "b" 0] 0, []⟩,
    ⟨[o "a" 0, o "w" 0, o "x" 0, o "y" 0], .cup (o "z" 0) (o "z" 1) false, [o "y" 1, o "x" 1, o "w" 1, o "b" 0]⟩,
    ⟨[o "a" 0, o "w" 0, o "x" 0], .cup (o "y" 0) (o "y" 1) false, [o "x" 1, o "w" 1, o "b" 0]⟩,
    ⟨[o "a" 0, o "w" 0], .cup (o "x" 0) (o "x" 1) false, [o "w" 1, o "b" 0]⟩,
    ⟨[o "a" 0], .cup (o "w" 0) (o "w" 1) false, [o "b" 0]⟩]⟩, by decide +kernel, ?_, by decide +kernel, by decide +kernel, by decide +kernel⟩
  intro l hl
  simp only [List.mem_cons, List.not_mem_nil, or_false] at hl
  rcases hl with rfl | rfl | rfl | rfl | rfl | rfl | rfl <;> simp [Box.Valid] <;> decide

/-- **C58.** `UnifyCodomainRewriter`: the result always exists, has the requested codomain and the same domain, is
well typed, and is the input itself if that already has the requested codomain, otherwise the input followed by one
box of the expected type. -/
theorem C58_unify_codomain (str : Ty → String) (output : Ty) (d : GDiagram) (hd : d.WT) :
    ∃ r, unifyCodomain str output d = .ok r ∧ r.WT ∧ r.dom = d.dom ∧ r.cod = output ∧
      (d.cod = output → r = d) ∧
      (d.cod ≠ output → r.boxes = d.boxes ++ [.gen ("MERGE_" ++ str d.cod) d.cod output 0]) := by
  unfold unifyCodomain
  by_cases h : d.cod = output
  · rw [if_neg (by simpa using h)]
    exact ⟨d, rfl, hd, rfl, h, fun _ => rfl, fun h' => absurd h h'⟩
  · rw [if_pos h]
    obtain ⟨r, h1, h2, h3, h4, h5⟩ := comp_spec hd (WT.ofBox (.gen ("MERGE_" ++ str d.cod) d.cod output 0)) rfl
    exact ⟨r, h1, h2, h3, h4, fun h' => absurd h' h, fun _ => by simp [Diagram.boxes, h5, ofBox]⟩

/-- Non-vacuity: the two cases. -/
example : (unifyCodomain (fun _ => "n") [⟨"s", 0⟩] (ofBox (.word "w" [⟨"n", 0⟩] 0))).map (·.cod) = .ok [⟨"s", 0⟩] ∧
    unifyCodomain (fun _ => "s") [⟨"s", 0⟩] (ofBox (.word "w" [⟨"s", 0⟩] 0)) = .ok (ofBox (.word "w" [⟨"s", 0⟩] 0)) := by
  decide +kernel

end DRewrite
end Lambeq
