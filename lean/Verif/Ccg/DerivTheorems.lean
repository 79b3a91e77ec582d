import Verif.Ccg.DerivProps

/-! # Printed derivations: proofs (C109) -/

namespace Lambeq
namespace Deriv

theorem blanks_len (n : Nat) : (blanks n).length = n := by simp [blanks]
theorem blanks_add (m n : Nat) : blanks m ++ blanks n = blanks (m + n) := by simp [blanks, List.replicate_append_replicate]
theorem center_len (s : List Char) (w : Nat) : (center s w).length = max s.length w := by
  simp only [center, List.length_append, blanks_len]; omega
theorem center_fit (s : List Char) (w : Nat) (h : w ≤ s.length) : center s w = s := by
  have : w - s.length = 0 := by omega
  simp [center, this, blanks]
theorem rjust_len (c : Char) (s : List Char) (w : Nat) : (rjust c s w).length = max s.length w := by
  simp only [rjust, List.length_append, List.length_replicate]; omega
theorem rjust_fit (c : Char) (s : List Char) (w : Nat) (h : w ≤ s.length) : rjust c s w = s := by
  have : w - s.length = 0 := by omega
  simp [rjust, this]

def Uniform (W : Nat) (B : List (List Char)) : Prop := ∀ l ∈ B, l.length = W

theorem mergeAt_nil (sp prev w : Nat) (d : List (List Char)) (hd : Uniform w d) (hp : prev ≤ w) : mergeAt sp prev [] d = d := by
  induction d generalizing prev with
  | nil => simp [mergeAt, extend]
  | cons c cs ih =>
    have hc : c.length = w := hd c (by simp)
    have e : rjust ' ' c prev = c := rjust_fit _ _ _ (by omega)
    simp only [mergeAt, extend, e] at ih ⊢
    rw [ih _ (fun l hl => hd l (by simp [hl])) (by omega)]

theorem mergeAt_left (sp prev : Nat) (acc : List (List Char)) (W w : Nat) (ha : Uniform W acc) (hp : prev = W + sp + w) :
    mergeAt sp prev acc [] = acc.map (fun l => l ++ blanks sp ++ blanks w) := by
  induction acc generalizing prev with
  | nil => simp [mergeAt, extend]
  | cons l ls ih =>
    have hl : l.length = W := ha l (by simp)
    have e : prev - l.length = sp + w := by omega
    simp only [mergeAt, List.map_cons, e, List.append_assoc, blanks_add]
    rw [ih _ (fun x hx => ha x (by simp [hx])) (by simp [blanks_len]; omega)]
    simp [List.append_assoc, blanks_add]

theorem mergeAt_right (sp prev : Nat) (d : List (List Char)) (W w : Nat) (hd : Uniform w d) (hp : prev = W + sp + w) :
    mergeAt sp prev [] d = d.map (fun l => blanks W ++ blanks sp ++ l) := by
  induction d generalizing prev with
  | nil => simp [mergeAt, extend]
  | cons l ls ih =>
    have hl : l.length = w := hd l (by simp)
    have e : rjust ' ' l prev = blanks W ++ blanks sp ++ l := by
      simp only [rjust, blanks_add]
      have : prev - l.length = W + sp := by omega
      rw [this, blanks]
    simp only [mergeAt, extend, List.map_cons, e] at ih ⊢
    rw [ih _ (fun x hx => hd x (by simp [hx])) (by simp [blanks_len]; omega)]

theorem mergeAt_length (sp prev : Nat) (acc d : List (List Char)) : (mergeAt sp prev acc d).length = max acc.length d.length := by
  induction acc generalizing prev d with
  | nil =>
    induction d generalizing prev with
    | nil => simp [mergeAt, extend]
    | cons c cs ih => simp only [mergeAt, extend, List.length_cons] at ih ⊢; simp [ih]
  | cons l ls ih =>
    cases d with
    | nil => simp only [mergeAt, List.length_cons, ih]; simp
    | cons c cs => simp only [mergeAt, List.length_cons, ih]; omega

theorem mergeAt_get (sp W w : Nat) (acc d : List (List Char)) (prev i : Nat) (ha : Uniform W acc) (hd : Uniform w d)
    (hp : (acc ≠ [] ∧ d ≠ []) ∨ prev = W + sp + w) :
    (mergeAt sp prev acc d).getD i (blanks (W + sp + w)) = acc.getD i (blanks W) ++ blanks sp ++ d.getD i (blanks w) := by
  induction acc generalizing prev d i with
  | nil =>
    have hp' : prev = W + sp + w := by simpa using hp
    rw [mergeAt_right sp prev d W w hd hp']
    by_cases hi : i < d.length
    · simp [List.getD_eq_getElem?_getD, hi]
    · have hi' : d.length ≤ i := by omega
      simp [List.getD_eq_getElem?_getD, hi', blanks_add]
  | cons l ls ih =>
    have hl : l.length = W := ha l (by simp)
    cases d with
    | nil =>
      have hp' : prev = W + sp + w := by simpa using hp
      rw [mergeAt_left sp prev (l :: ls) W w ha hp']
      by_cases hi : i < (l :: ls).length
      · simp only [List.getD_eq_getElem?_getD, List.getElem?_map, List.getElem?_eq_getElem hi, Option.map_some, Option.getD_some, List.getElem?_nil, Option.getD_none]
      · have hi' : (l :: ls).length ≤ i := by omega
        have hi2 : ls.length + 1 ≤ i := by simpa using hi'
        simp [List.getD_eq_getElem?_getD, hi2, blanks_add]
    | cons c cs =>
      have hc : c.length = w := hd c (by simp)
      simp only [mergeAt]
      cases i with
      | zero => simp
      | succ i =>
        have := ih cs (l ++ blanks sp ++ c).length i (fun x hx => ha x (by simp [hx])) (fun x hx => hd x (by simp [hx]))
          (.inr (by simp [blanks_len]; omega))
        simpa using this

theorem mergeAt_uniform (sp W w : Nat) (acc d : List (List Char)) (ha : Uniform W acc) (hd : Uniform w d) (hna : acc ≠ []) (hnd : d ≠ []) :
    Uniform (W + sp + w) (mergeAt sp 0 acc d) := by
  intro l hl
  obtain ⟨i, hi, rfl⟩ := List.mem_iff_getElem.1 hl
  have h := mergeAt_get sp W w acc d 0 i ha hd (.inl ⟨hna, hnd⟩)
  rw [List.getD_eq_getElem?_getD, List.getElem?_eq_getElem hi] at h
  simp only [Option.getD_some] at h
  rw [h]
  have key : ∀ (B : List (List Char)) (V : Nat), Uniform V B → (B.getD i (blanks V)).length = V := by
    intro B V hB
    by_cases hb : i < B.length
    · rw [List.getD_eq_getElem?_getD, List.getElem?_eq_getElem hb]; exact hB _ (List.getElem_mem hb)
    · rw [List.getD_eq_getElem?_getD, List.getElem?_eq_none (by omega)]; exact blanks_len _
  simp only [List.length_append, key acc W ha, key d w hd, blanks_len]

/-- heights and widths of blocks side by side -/
def blocksW (sp : Nat) : List (Nat × List (List Char)) → Nat
  | [] => 0
  | [b] => b.1
  | b :: b' :: bs => b.1 + sp + blocksW sp (b' :: bs)
def blocksH : List (Nat × List (List Char)) → Nat
  | [] => 0
  | b :: bs => max b.2.length (blocksH bs)

theorem fold_merge (sp : Nat) (bs : List (Nat × List (List Char))) (hb : ∀ b ∈ bs, Uniform b.1 b.2 ∧ b.2 ≠ [])
    (W : Nat) (acc : List (List Char)) (ha : Uniform W acc) (hna : acc ≠ []) :
    Uniform (blocksW sp ((W, acc) :: bs)) ((bs.map Prod.snd).foldl (mergeAt sp 0) acc)
    ∧ ((bs.map Prod.snd).foldl (mergeAt sp 0) acc).length = blocksH ((W, acc) :: bs)
    ∧ ∀ i, ((bs.map Prod.snd).foldl (mergeAt sp 0) acc).getD i (blanks (blocksW sp ((W, acc) :: bs))) = rowLine sp i ((W, acc) :: bs) := by
  induction bs generalizing W acc with
  | nil => exact ⟨ha, by simp [blocksH], fun i => rfl⟩
  | cons b bs ih =>
    obtain ⟨hu, hn⟩ := hb b (by simp)
    have hl := mergeAt_length sp 0 acc b.2
    have hne : mergeAt sp 0 acc b.2 ≠ [] := by
      intro e; rw [e] at hl
      have : 0 < acc.length := List.length_pos_iff.2 hna
      simp at hl; omega
    obtain ⟨h1, h2, h3⟩ := ih (fun x hx => hb x (by simp [hx])) (W + sp + b.1) (mergeAt sp 0 acc b.2)
      (mergeAt_uniform sp W b.1 acc b.2 ha hu hna hn) hne
    have eW : blocksW sp ((W + sp + b.1, mergeAt sp 0 acc b.2) :: bs) = blocksW sp ((W, acc) :: b :: bs) := by
      cases bs with
      | nil => simp [blocksW]
      | cons x xs => simp [blocksW]; omega
    have eH : blocksH ((W + sp + b.1, mergeAt sp 0 acc b.2) :: bs) = blocksH ((W, acc) :: b :: bs) := by
      simp only [blocksH, hl]; omega
    simp only [List.map_cons, List.foldl_cons]
    rw [eW] at h1 h3
    rw [eH] at h2
    refine ⟨h1, h2, fun i => ?_⟩
    rw [h3 i]
    have hg := mergeAt_get sp W b.1 acc b.2 0 i ha hu (.inl ⟨hna, hn⟩)
    cases bs with
    | nil => simp only [rowLine]; exact hg
    | cons x xs => simp only [rowLine]; rw [hg]; simp only [List.append_assoc]

theorem lines_of_get (W : Nat) (B : List (List Char)) (n : Nat) (f : Nat → List Char) (hn : B.length = n)
    (h : ∀ i, B.getD i (blanks W) = f i) : B = (List.range n).map f := by
  apply List.ext_getElem
  · simp [hn]
  · intro i h1 h2
    simp only [List.getElem_map, List.getElem_range, ← h i, List.getD_eq_getElem?_getD, List.getElem?_eq_getElem h1, Option.getD_some]

theorem sym_ok (r : Rule) (h : r ≠ .unknown) : r.symbol = .ok (symOf r) := by
  cases r <;> first | exact absurd rfl h | rfl

theorem depth_zero_lex (tx : Option String) (r : Rule) (ty : Cat) (h : Nat) (cs : List CTree) : depth (.node tx r ty h cs) = if r = .lexical then 0 else depths cs + 1 := by
  rw [depth]

theorem pictures_map (K : CharSet) (sp : Nat) (str : Cat → List Char) (cs : List CTree) :
    pictures K sp str cs = cs.map (fun c => (width sp str c, picture K sp str c)) := by
  induction cs with
  | nil => rfl
  | cons c cs ih => rw [pictures, ih]; rfl

theorem blocksW_pictures (K : CharSet) (sp : Nat) (str : Cat → List Char) (cs : List CTree) : blocksW sp (pictures K sp str cs) = widths sp str cs := by
  rw [pictures_map]
  induction cs with
  | nil => rfl
  | cons c cs ih =>
    cases cs with
    | nil => rfl
    | cons c' cs => simp only [List.map_cons, blocksW, widths] at *; rw [ih]

/-- A block of a tree that fits. -/
def Block (K : CharSet) (sp : Nat) (str : Cat → List Char) (c : CTree) : Prop :=
  Uniform (width sp str c) (picture K sp str c) ∧ (picture K sp str c).length = 3 + 2 * depth c

theorem blocksH_pictures (K : CharSet) (sp : Nat) (str : Cat → List Char) (cs : List CTree) (h : ∀ c ∈ cs, Block K sp str c) (hn : cs ≠ []) :
    blocksH (pictures K sp str cs) = 3 + 2 * depths cs := by
  rw [pictures_map]
  induction cs with
  | nil => exact absurd rfl hn
  | cons c cs ih =>
    have h1 := (h c (by simp)).2
    cases cs with
    | nil => simp [blocksH, depths, h1]
    | cons c' cs =>
      have h2 := ih (fun x hx => h x (by simp [hx])) (by simp)
      simp only [List.map_cons, blocksH] at h2 ⊢
      simp only [depths] at h2 ⊢
      rw [h1, h2]; omega

theorem node_block (K : CharSet) (sp : Nat) (str : Cat → List Char) (cs : List CTree) (hn : cs ≠ []) (h : ∀ c ∈ cs, Block K sp str c) :
    let L := (cs.map (picture K sp str)).foldl (mergeAt sp 0) []
    Uniform (widths sp str cs) L ∧ L = (List.range (3 + 2 * depths cs)).map (fun i => rowLine sp i (pictures K sp str cs)) := by
  cases cs with
  | nil => exact absurd rfl hn
  | cons c cs =>
    obtain ⟨hu, hl⟩ := h c (by simp)
    have hne : picture K sp str c ≠ [] := by intro e; rw [e] at hl; simp at hl; omega
    have hb : ∀ b ∈ pictures K sp str cs, Uniform b.1 b.2 ∧ b.2 ≠ [] := by
      intro b hb
      rw [pictures_map] at hb
      obtain ⟨x, hx, rfl⟩ := List.mem_map.1 hb
      obtain ⟨u, l⟩ := h x (by simp [hx])
      exact ⟨u, by intro e; replace e : picture K sp str x = [] := e; rw [e] at l; simp at l; omega⟩
    obtain ⟨h1, h2, h3⟩ := fold_merge sp (pictures K sp str cs) hb (width sp str c) (picture K sp str c) hu hne
    have em : (pictures K sp str cs).map Prod.snd = cs.map (picture K sp str) := by simp [pictures_map]
    have ep : (width sp str c, picture K sp str c) :: pictures K sp str cs = pictures K sp str (c :: cs) := by rw [pictures]
    rw [em, ep] at h1 h2 h3
    rw [blocksW_pictures] at h1 h3
    rw [blocksH_pictures K sp str (c :: cs) h (by simp)] at h2
    simp only [List.map_cons, List.foldl_cons]
    rw [mergeAt_nil sp 0 _ _ hu (by omega)]
    exact ⟨h1, lines_of_get _ _ _ _ h2 h3⟩

theorem horizs_ok (K : CharSet) (sp : Nat) (str : Cat → List Char) (cs : List CTree) (f : CTree → List (List Char)) (h : ∀ c ∈ cs, horiz K sp str c = .ok (f c)) :
    horizs K sp str cs = .ok (cs.map f) := by
  induction cs with
  | nil => rfl
  | cons c cs ih => rw [horizs, h c (by simp), ih (fun x hx => h x (by simp [hx]))]; rfl

theorem map_center_id (w : Nat) (L : List (List Char)) (h : Uniform w L) (v : Nat) (hv : v ≤ w) : L.map (fun l => center l v) = L := by
  induction L with
  | nil => rfl
  | cons l L ih =>
    rw [List.map_cons, ih (fun x hx => h x (by simp [hx])), center_fit _ _ (by rw [h l (by simp)]; exact hv)]

mutual
theorem picture_main (K : CharSet) (sp : Nat) (str : Cat → List Char) (t : CTree) (hf : Fits sp str t) :
    Block K sp str t ∧ horiz K sp str t = .ok (picture K sp str t) := by
  cases t with
  | node tx r ty h cs =>
    by_cases hr : r = .lexical
    · subst hr
      refine ⟨⟨?_, ?_⟩, ?_⟩
      · intro l hl
        rw [picture] at hl
        have hw : width sp str (.node tx .lexical ty h cs) = max (str ty).length (CTree.node tx .lexical ty h cs).text.toList.length := by
          rw [width]; simp
        simp only [if_true, List.mem_cons, List.not_mem_nil, or_false] at hl
        rcases hl with rfl | rfl | rfl
        · rw [center_len, hw]; omega
        · simp
        · rw [center_len, hw]; omega
      · rw [picture, depth]; simp
      · rw [picture, horiz, width]; simp
    · rw [Fits] at hf
      rcases hf with hf | ⟨hu, hn, hsym, hfs⟩
      · exact absurd hf hr
      · have hall := pictures_main K sp str cs hfs
        have hw : width sp str (.node tx r ty h cs) = max (widths sp str cs) (str ty).length := by rw [width, if_neg hr]
        obtain ⟨h1, h2⟩ := node_block K sp str cs hn (fun c hc => (hall c hc).1)
        have hh := horizs_ok K sp str cs (picture K sp str) (fun c hc => (hall c hc).2)
        generalize hL : (cs.map (picture K sp str)).foldl (mergeAt sp 0) [] = L at h1 h2
        have hLl : L.length = 3 + 2 * depths cs := by rw [h2]; simp
        have hinner : (L.getD (L.length - 2) []).length = widths sp str cs := by
          have hlt : L.length - 2 < L.length := by omega
          rw [List.getD_eq_getElem?_getD, List.getElem?_eq_getElem hlt]
          exact h1 _ (List.getElem_mem hlt)
        have hpic : picture K sp str (.node tx r ty h cs) = L.map (fun l => center l (width sp str (.node tx r ty h cs)))
            ++ [List.replicate (width sp str (.node tx r ty h cs) - (symOf r).length) K.line ++ symOf r, center (str ty) (width sp str (.node tx r ty h cs))] := by
          rw [picture, if_neg hr, h2, List.map_map]; rfl
        refine ⟨⟨?_, ?_⟩, ?_⟩
        · intro l hl
          rw [hpic] at hl
          simp only [List.mem_append, List.mem_map, List.mem_cons, List.not_mem_nil, or_false] at hl
          rcases hl with ⟨x, hx, rfl⟩ | rfl | rfl
          · rw [center_len, h1 x hx, hw]; omega
          · simp only [List.length_append, List.length_replicate]; omega
          · rw [center_len, hw]; omega
        · rw [hpic, depth, if_neg hr]; simp [hLl]; omega
        · rw [hpic, horiz, if_neg hr, hh]
          simp only [sym_ok r hu]
          rw [if_neg hn, nodeLines, hL]
          simp only [hinner]
          by_cases hc : (str ty).length > widths sp str cs
          · rw [if_pos hc]
            have : width sp str (.node tx r ty h cs) = (str ty).length := by omega
            rw [this]; rfl
          · rw [if_neg hc]
            have : width sp str (.node tx r ty h cs) = widths sp str cs := by omega
            rw [this, map_center_id _ L h1 _ (Nat.le_refl _)]; rfl
theorem pictures_main (K : CharSet) (sp : Nat) (str : Cat → List Char) (cs : List CTree) (hf : Fitss sp str cs) :
    ∀ c ∈ cs, Block K sp str c ∧ horiz K sp str c = .ok (picture K sp str c) := by
  cases cs with
  | nil => intro c hc; simp at hc
  | cons x xs =>
    rw [Fitss] at hf
    have h1 := picture_main K sp str x hf.1
    have h2 := pictures_main K sp str xs hf.2
    intro c hc
    rcases List.mem_cons.1 hc with rfl | hc
    · exact h1
    · exact h2 c hc
end

/-- If no symbol is wider than its node, the drawing is the picture. -/
theorem C109_picture_partial (rpr : List Char → List Char) (sp : Nat) (us ua : Bool) (t : CTree)
    (hf : Fits sp (if (us || ua) = true then Cat.toStr else Cat.toPretty) t) :
    deriv rpr sp us ua false t = .ok (picture (if ua = true then asciiSet else unicodeSet) sp (if (us || ua) = true then Cat.toStr else Cat.toPretty) t) := by
  simp only [deriv]
  exact (picture_main _ sp _ t hf).2

/-- ... and all its lines are equally long. -/
theorem C109_aligned_partial (rpr : List Char → List Char) (sp : Nat) (us ua : Bool) (t : CTree) (P : List (List Char))
    (hf : Fits sp (if (us || ua) = true then Cat.toStr else Cat.toPretty) t) (hP : deriv rpr sp us ua false t = .ok P) :
    ∀ l ∈ P, l.length = width sp (if (us || ua) = true then Cat.toStr else Cat.toPretty) t := by
  rw [C109_picture_partial rpr sp us ua t hf] at hP
  cases hP
  exact (picture_main _ sp _ t hf).1.1

theorem sym_len (r : Rule) : (symOf r).length ≤ 4 := by cases r <;> decide

mutual
theorem branching_fits (sp : Nat) (str : Cat → List Char) (hsp : 2 ≤ sp) (t : CTree) (hb : Branching str t) : Fits sp str t ∧ 1 ≤ width sp str t := by
  cases t with
  | node tx r ty h cs =>
    rw [Branching] at hb
    obtain ⟨hty, hb⟩ := hb
    have hpos : 0 < (str ty).length := List.length_pos_iff.2 hty
    by_cases hr : r = .lexical
    · refine ⟨?_, ?_⟩
      · rw [Fits]; exact .inl hr
      · rw [width, if_pos hr]; omega
    · rcases hb with hb | ⟨hu, hl, hbs⟩
      · exact absurd hb hr
      · obtain ⟨hfs, hws⟩ := branchings_fits sp str hsp cs hbs
        have hw : width sp str (.node tx r ty h cs) = max (widths sp str cs) (str ty).length := by rw [width, if_neg hr]
        have hs := sym_len r
        have h4 := hws hl
        refine ⟨?_, ?_⟩
        · rw [Fits]
          exact .inr ⟨hu, by intro e; rw [e] at hl; simp at hl, by rw [hw]; omega, hfs⟩
        · rw [hw]; omega
theorem branchings_fits (sp : Nat) (str : Cat → List Char) (hsp : 2 ≤ sp) (cs : List CTree) (hb : Branchings str cs) :
    Fitss sp str cs ∧ (2 ≤ cs.length → 4 ≤ widths sp str cs) := by
  cases cs with
  | nil => exact ⟨by rw [Fitss]; trivial, by simp⟩
  | cons c cs =>
    rw [Branchings] at hb
    obtain ⟨h1, h2⟩ := branching_fits sp str hsp c hb.1
    obtain ⟨h3, _⟩ := branchings_fits sp str hsp cs hb.2
    refine ⟨by rw [Fitss]; exact ⟨h1, h3⟩, fun hl => ?_⟩
    cases cs with
    | nil => simp at hl
    | cons c' cs =>
      rw [Branchings] at hb
      have h5 := (branching_fits sp str hsp c' hb.2.1).2
      have h6 : width sp str c' ≤ widths sp str (c' :: cs) := by
        cases cs with
        | nil => simp [widths]
        | cons x xs => rw [widths]; omega
      rw [widths]; omega
end

/-- With the default spacing symbols fit wherever two trees are joined; so only a node with one child can be narrower than its symbol. -/
theorem C109_binary_fits (sp : Nat) (str : Cat → List Char) (hsp : 2 ≤ sp) (t : CTree) (hb : Branching str t) : Fits sp str t :=
  (branching_fits sp str hsp t hb).1

end Deriv
end Lambeq
