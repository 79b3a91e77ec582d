import Verif.Rewrite.RemoveCupsProps

/-!
# Compressing nested cups (first half of the second pass of C57)
-/

namespace Lambeq
open Diagram GDiagram
set_option linter.unusedSimpArgs false
set_option linter.unusedVariables false

namespace DRewrite

/-! ## The interpretation of tokens -/

section
variable {R : Type} [CommSemiring R]

/-- `I`, with boxes carrying the reserved name read as nested cups. -/
def tokInterp (I : Interp Ob Box R) : Interp Ob Box R :=
  ⟨I.dim, fun b x y => if baseName b = cupToken then (if x.reverse = x ∧ y.reverse = y then 1 else 0) else I.ten b x y⟩

theorem tokInterp_idx (I : Interp Ob Box R) (t : Ty) : (tokInterp I).idx t = I.idx t := by
  induction t with
  | nil => rfl
  | cons o t ih => simp only [Interp.idx, ih]; rfl

theorem base_dagger_iff (b : Box) : baseName b.dagger = cupToken ↔ baseName b = cupToken := by
  cases b with
  | cup l r rev => simp only [Box.dagger, baseName, Rewrite.boxName]; decide
  | cap l r rev => simp only [Box.dagger, baseName, Rewrite.boxName]; decide
  | _ => exact Iff.rfl

theorem tokInterp_compact {I : Interp Ob Box R} (hI : Compact I) : Compact (tokInterp I) where
  dim_rot := hI.dim_rot
  cup l r rev hv i hi j hj := by
    have : baseName (.cup l r rev) ≠ cupToken := cup_name
    simp only [tokInterp, if_neg this]
    exact hI.cup l r rev hv i hi j hj
  transpose b hv z hz x hx y hy := by
    rw [tokInterp_idx] at hx hy
    simp only [tokInterp, base_rotate, base_dagger_iff]
    by_cases h : baseName b = cupToken
    · simp only [if_pos h]
      refine if_congr ?_ rfl rfl
      rw [List.reverse_reverse, List.reverse_reverse, @eq_comm _ y, @eq_comm _ x, and_comm]
    · simp only [if_neg h]
      exact hI.transpose b hv z hz x hx y hy

theorem tokInterp_act (I : Interp Ob Box R) (l : GLayer) (h : baseName l.box ≠ cupToken) (v : List Nat → R) :
    (tokInterp I).act l v = I.act l v := by
  funext y
  simp only [Interp.act, tokInterp_idx]
  refine Finset.sum_congr rfl (fun i _ => ?_)
  simp only [tokInterp, if_neg h]

theorem tokInterp_run (I : Interp Ob Box R) (ls : List GLayer) (h : ∀ l ∈ ls, baseName l.box ≠ cupToken) (v : List Nat → R) :
    (tokInterp I).run ls v = I.run ls v := by
  induction ls generalizing v with
  | nil => rfl
  | cons l ls ih =>
    rw [Interp.run, Interp.run, tokInterp_act I l (h l (by simp)), ih (fun m hm => h m (by simp [hm]))]

theorem sameMap_of_tok {I : Interp Ob Box R} {d e : GDiagram} (hd : NoTok d) (he : NoTok e) (h : (tokInterp I).SameMap d e) :
    I.SameMap d e := by
  refine ⟨h.1, h.2.1, fun x hx y hy => ?_⟩
  have := h.2.2 x (by rw [tokInterp_idx]; exact hx) y (by rw [tokInterp_idx]; exact hy)
  rwa [Interp.mat, Interp.mat, tokInterp_run I _ (fun l hl => hd _ (List.mem_map.2 ⟨l, hl, rfl⟩)),
    tokInterp_run I _ (fun l hl => he _ (List.mem_map.2 ⟨l, hl, rfl⟩))] at this

end

/-! ## The compression on layers -/

/-- `compressStep` on layers (newest first). -/
def lcStep (ls : List GLayer) (l : GLayer) : List GLayer :=
  match ls with
  | [] => [l]
  | p :: rest =>
    if isCup l.box && isCup p.box && decide ((l.left.length : Int) = (p.left.length : Int) - 1) then
      ⟨l.left, .gen cupToken (l.box.dom.take 1 ++ p.box.dom ++ l.box.dom.drop 1) [] 0, l.right⟩ :: rest
    else l :: p :: rest

def bo (l : GLayer) : Box × Nat := (l.box, l.left.length)

theorem lcStep_bo (ls : List GLayer) (l : GLayer) : compressStep (ls.map bo) (bo l) = (lcStep ls l).map bo := by
  cases ls with
  | nil => rfl
  | cons p rest =>
    have e1 : pySlice l.box.dom none (some 1) = l.box.dom.take 1 := pySlice_nat_to l.box.dom 1
    have e2 : pySlice l.box.dom (some 1) none = l.box.dom.drop 1 := pySlice_nat_from l.box.dom 1
    show compressStep ((p.box, p.left.length) :: rest.map bo) (l.box, l.left.length) = _
    simp only [compressStep, lcStep, e1, e2, Bool.and_eq_true, decide_eq_true_eq]
    by_cases h : (isCup l.box = true ∧ isCup p.box = true) ∧ (l.left.length : Int) = (p.left.length : Int) - 1
    · rw [if_pos h, if_pos h]; rfl
    · rw [if_neg h, if_neg h]; rfl

theorem zip_bo (ls : List GLayer) : (ls.map (·.box)).zip (ls.map (·.left.length)) = ls.map bo := by
  induction ls with
  | nil => rfl
  | cons l ls ih => simp [ih, bo]

theorem rebuild {ls : List GLayer} {pre : GDiagram} {c : Ty} (h : Chain pre.cod ls c) :
    (ls.map bo).foldlM (fun acc bo => thenAt acc (ofBox bo.1) (bo.2 : Int)) pre = .ok ⟨pre.dom, c, pre.layers ++ ls⟩ := by
  induction ls generalizing pre with
  | nil =>
    obtain rfl : pre.cod = c := h
    simp; rfl
  | cons l ls ih =>
    obtain ⟨h1, h2⟩ := h
    simp only [List.map_cons, List.foldlM_cons, bo]
    rw [thenAt_eq (g := ofBox l.box) l.left l.right (by rw [← h1]; rfl), ok_bind]
    have := ih (pre := ⟨pre.dom, l.left ++ l.box.cod ++ l.right, pre.layers ++ [l]⟩) h2
    refine Eq.trans ?_ (this.trans (by simp))
    congr 1
    simp [ofBox, Layer.extend, BoxSig.cod]

theorem isCup_cases {b : Box} (h : isCup b = true) : ∃ l r rev, b = .cup l r rev := by
  cases b with
  | cup l r rev => exact ⟨l, r, rev, rfl⟩
  | _ => simp [isCup] at h

/-- The layers of the compressed diagram, newest first. -/
def lcAll (ls : List GLayer) : List GLayer := ls.foldl lcStep []

theorem compressCups_eq (d : GDiagram) : compressCups d =
    (((lcAll d.layers).reverse).map bo).foldlM (fun acc bo => thenAt acc (ofBox bo.1) (bo.2 : Int)) (Diagram.id d.dom) := by
  unfold compressCups
  have : (d.boxes.zip d.offsets).foldl compressStep [] = (lcAll d.layers).map bo := by
    unfold Diagram.boxes Diagram.offsets
    rw [zip_bo]
    have key : ∀ (ls acc : List GLayer), (ls.map bo).foldl compressStep (acc.map bo) = (ls.foldl lcStep acc).map bo := by
      intro ls
      induction ls with
      | nil => intro acc; rfl
      | cons l ls ih => intro acc; rw [List.map_cons, List.foldl_cons, lcStep_bo, ih]; rfl
    exact key d.layers []
  rw [this, List.map_reverse]

section
variable {R : Type} [CommSemiring R] {I : Interp Ob Box R}

theorem merge_layers (hI : Compact I) {p l : GLayer} {P Q : Ty} (hpl : p.cod = l.dom) (hv1 : p.box.Valid) (hv2 : l.box.Valid)
    (h : (isCup l.box && isCup p.box && decide ((l.left.length : Int) = (p.left.length : Int) - 1)) = true) :
    ∃ (a b x y : Ob) (r1 r2 : Bool), l.box = .cup a b r1 ∧ p.box = .cup x y r2 ∧
      p.left = l.left ++ [a] ∧ p.right = [b] ++ l.right ∧
      (tokInterp I).SameMap (Diagram.comp (ofLayer p) (ofLayer l)) (ofLayer ⟨l.left, .gen cupToken [a, x, y, b] [] 0, l.right⟩) := by
  simp only [Bool.and_eq_true, decide_eq_true_eq] at h
  obtain ⟨⟨h1, h2⟩, h3⟩ := h
  obtain ⟨a, b, r1, e1⟩ := isCup_cases h1
  obtain ⟨x, y, r2, e2⟩ := isCup_cases h2
  obtain ⟨pl, pb, pr⟩ := p
  obtain ⟨ll, lb, lr⟩ := l
  simp only at e1 e2 h3 hv1 hv2
  subst e1 e2
  have hc : pl ++ pr = (ll ++ [a]) ++ ([b] ++ lr) := by
    simpa [Layer.cod, Layer.dom, BoxSig.cod, BoxSig.dom, Box.cod, Box.dom] using hpl
  obtain ⟨rfl, rfl⟩ := List.append_inj hc (by simp; omega)
  refine ⟨a, b, x, y, r1, r2, rfl, rfl, rfl, rfl, by simp [Diagram.comp, ofLayer, Layer.dom, BoxSig.dom, Box.dom],
    by simp [Diagram.comp, ofLayer, Layer.cod, BoxSig.cod, Box.cod], ?_⟩
  have hT := tokInterp_compact hI
  generalize hJ : tokInterp I = J at hT
  have htok : ∀ u v, J.ten (.gen cupToken [a, x, y, b] [] 0) u v = if u.reverse = u ∧ v.reverse = v then 1 else 0 := by
    intro u v; rw [← hJ]; simp [tokInterp, baseName, Rewrite.boxName]
  intro X hX Y hY
  have hX' : X ∈ J.idx (ll ++ ([a, x, y, b] ++ lr)) := by
    simpa [Diagram.comp, ofLayer, Layer.dom, BoxSig.dom, Box.dom] using hX
  have hY' : Y ∈ J.idx (ll ++ lr) := by
    simpa [Diagram.comp, ofLayer, Layer.cod, BoxSig.cod, Box.cod] using hY
  obtain ⟨xl, X2, rfl, hxl, hX2⟩ := J.mem_append hX'
  obtain ⟨xb, xr, rfl, hxb, hxr⟩ := J.mem_append hX2
  obtain ⟨yl, yr, rfl, hyl, hyr⟩ := J.mem_append hY'
  obtain ⟨p, q, s, t, hp, hq, hs, ht, rfl⟩ : ∃ p q s t, p < J.dim a ∧ q < J.dim x ∧ s < J.dim y ∧ t < J.dim b ∧ xb = [p, q, s, t] := by
    rw [J.mem_idx] at hxb
    cases hxb with | cons k1 k2 => cases k2 with | cons k2 k3 => cases k3 with | cons k3 k4 => cases k4 with | cons k4 k5 =>
      cases k5; exact ⟨_, _, _, _, k1, k2, k3, k4, rfl⟩
  have nil_mem : ([] : List Nat) ∈ J.idx ([] : Ty) := by simp [Interp.idx]
  have hpa : xl ++ [p] ∈ J.idx (ll ++ [a]) := J.append_mem hxl ((J.mem_idx _ _).2 (.cons hp .nil))
  have htb : [t] ++ xr ∈ J.idx ([b] ++ lr) := J.append_mem ((J.mem_idx [b] _).2 (.cons ht .nil)) hxr
  have e2 := layer_mat (I := J) ⟨ll, .gen cupToken [a, x, y, b] [] 0, lr⟩ (xl := xl) (xb := [p, q, s, t]) (xr := xr) (yl := yl) (yb := [])
    (yr := yr) hxl hxb hxr hyl nil_mem hyr
  rw [List.nil_append, htok] at e2
  have e1 := J.mat_comp' (ofLayer_wt ⟨ll, .cup a b r1, lr⟩) (f := ofLayer ⟨ll ++ [a], .cup x y r2, [b] ++ lr⟩) hpl
    (xl ++ ([p, q, s, t] ++ xr)) (y := yl ++ yr) (by simpa [ofLayer, Layer.cod, BoxSig.cod, Box.cod] using hY')
  rw [e1]
  have hcod : (ofLayer (⟨ll ++ [a], .cup x y r2, [b] ++ lr⟩ : GLayer)).cod = (ll ++ [a]) ++ ([b] ++ lr) := by
    simp [ofLayer, Layer.cod, BoxSig.cod, Box.cod]
  rw [hcod, J.sum_idx_append]
  have hP : ∀ u ∈ J.idx (ll ++ [a]), ∀ v ∈ J.idx ([b] ++ lr),
      J.mat (ofLayer ⟨ll ++ [a], .cup x y r2, [b] ++ lr⟩) (xl ++ ([p, q, s, t] ++ xr)) (u ++ v)
      = (if u = xl ++ [p] then 1 else 0) * ((if q = s then 1 else 0) * (if v = [t] ++ xr then 1 else 0)) := by
    intro u hu v hv
    have := layer_mat (I := J) ⟨ll ++ [a], .cup x y r2, [b] ++ lr⟩ (xl := xl ++ [p]) (xb := [q, s]) (xr := [t] ++ xr) (yl := u)
      (yb := []) (yr := v) hpa ((J.mem_idx _ _).2 (.cons hq (.cons hs .nil))) htb hu nil_mem hv
    rw [hT.cup x y r2 hv1 q hq s hs, List.nil_append] at this
    rw [← this]
    simp [Interp.mat, ofLayer]
  rw [Finset.sum_congr rfl (fun u hu => Finset.sum_congr rfl (fun v hv => by rw [hP u hu v hv]))]
  have e3 : ∀ u ∈ J.idx (ll ++ [a]), ∑ v ∈ J.idx ([b] ++ lr),
      (if u = xl ++ [p] then (1 : R) else 0) * ((if q = s then 1 else 0) * (if v = [t] ++ xr then 1 else 0))
        * J.mat (ofLayer ⟨ll, .cup a b r1, lr⟩) (u ++ v) (yl ++ yr)
      = (if u = xl ++ [p] then (1 : R) else 0) * ((if q = s then 1 else 0)
        * J.mat (ofLayer ⟨ll, .cup a b r1, lr⟩) (u ++ ([t] ++ xr)) (yl ++ yr)) := by
    intro u _
    rw [← sum_delta (I := J) ([b] ++ lr) htb (fun v => J.mat (ofLayer ⟨ll, .cup a b r1, lr⟩) (u ++ v) (yl ++ yr)),
      Finset.mul_sum, Finset.mul_sum]
    exact Finset.sum_congr rfl (fun v _ => by ring)
  rw [Finset.sum_congr rfl e3, sum_delta (I := J) _ hpa (fun u => (if q = s then 1 else 0)
        * J.mat (ofLayer ⟨ll, .cup a b r1, lr⟩) (u ++ ([t] ++ xr)) (yl ++ yr))]
  have e4 := layer_mat (I := J) ⟨ll, .cup a b r1, lr⟩ (xl := xl) (xb := [p, t]) (xr := xr) (yl := yl) (yb := [])
    (yr := yr) hxl ((J.mem_idx _ _).2 (.cons hp (.cons ht .nil))) hxr hyl nil_mem hyr
  rw [hT.cup a b r1 hv2 p hp t ht, List.nil_append] at e4
  have e5 : J.mat (ofLayer ⟨ll, .cup a b r1, lr⟩) (xl ++ [p] ++ ([t] ++ xr)) (yl ++ yr)
      = (if yl = xl then 1 else 0) * ((if p = t then 1 else 0) * (if yr = xr then 1 else 0)) := by
    rw [← e4]; simp [Interp.mat, ofLayer]
  rw [e5]
  have e6 : J.mat (ofLayer ⟨ll, .gen cupToken [a, x, y, b] [] 0, lr⟩) (xl ++ ([p, q, s, t] ++ xr)) (yl ++ yr) = _ := e2
  rw [e6]
  by_cases k1 : p = t
  · by_cases k2 : q = s
    · simp [k1, k2]
    · simp [k1, k2, eq_comm]
  · simp [k1, eq_comm]


/-- What the compression keeps: types and meaning; and the boxes it produces can be processed. -/
theorem lcStep_spec (hI : Compact I) {a c c' : Ty} {acc pre : List GLayer} {l : GLayer} (hacc : Chain a acc.reverse c)
    (hpre : Chain a pre c) (hl : l.dom = c) (hlc : l.cod = c') (hv : l.box.Valid ∧ baseName l.box ≠ cupToken)
    (hg : ∀ m ∈ acc, Good (tokInterp I) m.box ∧ (m.box.dom = [] → baseName m.box ≠ cupToken))
    (hs : (tokInterp I).SameMap ⟨a, c, pre⟩ ⟨a, c, acc.reverse⟩) :
    Chain a (lcStep acc l).reverse c' ∧
    (∀ m ∈ lcStep acc l, Good (tokInterp I) m.box ∧ (m.box.dom = [] → baseName m.box ≠ cupToken)) ∧
    (tokInterp I).SameMap ⟨a, c', pre ++ [l]⟩ ⟨a, c', (lcStep acc l).reverse⟩ := by
  subst hl hlc
  have hlast : (tokInterp I).SameMap ⟨a, l.cod, pre ++ [l]⟩ ⟨a, l.cod, acc.reverse ++ [l]⟩ :=
    Interp.SameMap.comp hs (.refl (ofLayer l)) (ofLayer_wt l) (ofLayer_wt l) rfl
  have happ : Chain a (acc.reverse ++ [l]) l.cod := Chain.append hacc ⟨rfl, rfl⟩
  cases acc with
  | nil =>
    refine ⟨by simpa [lcStep] using happ, ?_, by simpa [lcStep] using hlast⟩
    intro m hm
    simp [lcStep] at hm
    subst hm
    exact ⟨⟨hv.1, .inl hv.2⟩, fun _ => hv.2⟩
  | cons p rest =>
    rw [lcStep]
    split
    · rename_i hcond
      rw [List.reverse_cons] at hacc hs
      obtain ⟨m, hm1, hm2⟩ := chain_append_iff.1 hacc
      obtain ⟨rfl, hpl⟩ := hm2
      have hpl : p.cod = l.dom := hpl
      have hgp := hg p (by simp)
      have hpv : p.box.Valid := hgp.1.1
      obtain ⟨o1, o2, x, y, r1, r2, e1, e2, e3, e4, e5⟩ := merge_layers hI (P := []) (Q := []) hpl hpv hv.1 hcond
      have et : (⟨l.left, .gen cupToken (l.box.dom.take 1 ++ p.box.dom ++ l.box.dom.drop 1) [] 0, l.right⟩ : GLayer)
          = ⟨l.left, .gen cupToken [o1, x, y, o2] [] 0, l.right⟩ := by
        rw [e1, e2]; rfl
      rw [et]
      generalize htk : (⟨l.left, .gen cupToken [o1, x, y, o2] [] 0, l.right⟩ : GLayer) = tk at e5
      have htd : tk.dom = p.dom := e5.1.symm
      have htc : tk.cod = l.cod := e5.2.1.symm
      refine ⟨?_, ?_, ?_⟩
      · rw [List.reverse_cons]
        exact Chain.append hm1 ⟨htd, htc⟩
      · intro m hm
        rcases List.mem_cons.1 hm with rfl | hm
        · rw [← htk]
          refine ⟨⟨trivial, .inr ⟨rfl, [o1, x], [y, o2], rfl, rfl, rfl, ?_⟩⟩, by simp [Box.dom]⟩
          intro i hi j hj
          have li := Interp.length_of_mem _ hi
          have lj := Interp.length_of_mem _ hj
          simp only [tokInterp, baseName, Rewrite.boxName, if_true]
          refine if_congr ?_ rfl rfl
          constructor
          · rintro ⟨h, _⟩
            rw [List.reverse_append] at h
            exact (List.append_inj h (by simp [li, lj])).2
          · rintro rfl
            simp
        · exact hg m (by simp [hm])
      · rw [List.reverse_cons]
        have wR : (⟨a, p.dom, rest.reverse⟩ : GDiagram).WT := hm1
        have : (tokInterp I).SameMap ⟨a, l.cod, rest.reverse ++ [p] ++ [l]⟩ ⟨a, l.cod, rest.reverse ++ [tk]⟩ := by
          have := Interp.SameMap.comp (.refl (⟨a, p.dom, rest.reverse⟩ : GDiagram)) e5
            (comp_wt (ofLayer_wt p) (ofLayer_wt l) hpl) (ofLayer_wt tk) rfl
          simpa [Diagram.comp, ofLayer, htc] using this
        exact Interp.SameMap.trans (by simpa using hlast) this
    · refine ⟨by simpa using happ, ?_, by simpa using hlast⟩
      intro m hm
      rcases List.mem_cons.1 hm with rfl | hm
      · exact ⟨⟨hv.1, .inl hv.2⟩, fun _ => hv.2⟩
      · exact hg m hm

theorem compressCups_spec (hI : Compact I) {d : GDiagram} (hd : WF d) (ht : NoTok d) :
    ∃ e, compressCups d = .ok e ∧ e.WT ∧ e.dom = d.dom ∧ e.cod = d.cod ∧
      (∀ m ∈ e.layers, Good (tokInterp I) m.box ∧ (m.box.dom = [] → baseName m.box ≠ cupToken)) ∧
      (tokInterp I).SameMap d e := by
  have key : ∀ (ls pre acc : List GLayer) (c : Ty), Chain d.dom acc.reverse c → Chain d.dom pre c → Chain c ls d.cod →
      (∀ l ∈ ls, l.box.Valid ∧ baseName l.box ≠ cupToken) →
      (∀ m ∈ acc, Good (tokInterp I) m.box ∧ (m.box.dom = [] → baseName m.box ≠ cupToken)) →
      (tokInterp I).SameMap ⟨d.dom, c, pre⟩ ⟨d.dom, c, acc.reverse⟩ →
      Chain d.dom (ls.foldl lcStep acc).reverse d.cod ∧
      (∀ m ∈ ls.foldl lcStep acc, Good (tokInterp I) m.box ∧ (m.box.dom = [] → baseName m.box ≠ cupToken)) ∧
      (tokInterp I).SameMap ⟨d.dom, d.cod, pre ++ ls⟩ ⟨d.dom, d.cod, (ls.foldl lcStep acc).reverse⟩ := by
    intro ls
    induction ls with
    | nil =>
      intro pre acc c h1 h2 h3 _ h5 h6
      obtain rfl : c = d.cod := h3
      exact ⟨h1, h5, by simpa using h6⟩
    | cons l ls ih =>
      intro pre acc c h1 h2 h3 h4 h5 h6
      obtain ⟨k1, k2⟩ := h3
      obtain ⟨s1, s2, s3⟩ := lcStep_spec hI h1 h2 k1 rfl (h4 l (by simp)) h5 h6
      have := ih (pre ++ [l]) (lcStep acc l) l.cod s1 (Chain.append h2 ⟨k1, rfl⟩) k2 (fun m hm => h4 m (by simp [hm])) s2 s3
      simpa using this
  obtain ⟨k1, k2, k3⟩ := key d.layers [] [] d.dom rfl rfl hd.1
    (fun l hl => ⟨hd.2 l hl, ht _ (List.mem_map.2 ⟨l, hl, rfl⟩)⟩) (by simp) (.refl _)
  refine ⟨⟨d.dom, d.cod, (lcAll d.layers).reverse⟩, ?_, k1, rfl, rfl, ?_, k3⟩
  · rw [compressCups_eq]
    have := rebuild (pre := Diagram.id d.dom) (ls := (lcAll d.layers).reverse) (c := d.cod) k1
    simpa [Diagram.id] using this
  · intro m hm
    exact k2 m (List.mem_reverse.1 hm)

/-- Whatever `RemoveCupsRewriter` returns is well formed and denotes the same linear map. -/
theorem removeCups_spec (hI : Compact I) {d r : GDiagram} (hd : WF d) (ht : NoTok d) (h : removeCups d = .ok r) :
    WF r ∧ NoTok r ∧ I.SameMap d r := by
  unfold removeCups at h
  simp only [Functor.bind_ok_iff] at h
  obtain ⟨a, h1, b, h2, h3⟩ := h
  obtain ⟨a1, a2, a3⟩ := removeCupsPass_spec hI hd.1
    (fun l hl => ⟨hd.2 l hl, .inl (ht _ (List.mem_map.2 ⟨l, hl, rfl⟩))⟩)
    (fun l hl _ => ht _ (List.mem_map.2 ⟨l, hl, rfl⟩)) h1
  obtain ⟨e, c1, c2, c3, c4, c5, c6⟩ := compressCups_spec hI a1 a2
  rw [c1] at h2
  injection h2 with h2
  subst h2
  obtain ⟨b1, b2, b3⟩ := removeCupsPass_spec (tokInterp_compact hI) c2 (fun l hl => (c5 l hl).1) (fun l hl => (c5 l hl).2) h3
  exact ⟨b1, b2, a3.trans (sameMap_of_tok a2 b2 (c6.trans b3))⟩

end
end DRewrite
end Lambeq
