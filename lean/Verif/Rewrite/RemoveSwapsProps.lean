import Verif.Rewrite.CompressProps

/-!
# Removing swaps (C59)
-/

namespace Lambeq
open Diagram GDiagram
set_option linter.unusedSimpArgs false
set_option linter.unusedVariables false

namespace DRewrite

/-! ## Specification -/

/-- `isinstance(box, Swap)` -/
def isSwap : Box → Bool
  | .swap _ _ => true
  | _ => false

/-- For every wire below the words, the index of the word it belongs to. -/
def owners (d : GDiagram) : List Nat :=
  (d.boxes.filter isWord).zipIdx.flatMap (fun bk => List.replicate bk.1.cod.length bk.2)

/-- Read the morphisms top to bottom, keeping for each wire position the word that owns it. A swap moves no owner
(the rewriter exchanges the types and leaves the wires in place), a cup removes two positions. No cup may join two
positions of one word. -/
def NoSelfCup : List Nat → List (Box × Nat) → Prop
  | _, [] => True
  | ow, (.cup _ _ _, off) :: rest => ow[off]? ≠ ow[off + 1]? ∧ NoSelfCup (ow.take off ++ ow.drop (off + 2)) rest
  | ow, _ :: rest => NoSelfCup ow rest

/-- `b.name` for the words of a diagram, with their numbers of wires. -/
def wordShapes (d : GDiagram) : List (String × Nat) :=
  (d.boxes.filter isWord).map (fun b => (Rewrite.boxName b, b.cod.length))

/-! ## The shape of pregroup diagrams -/

/-- Layers of words placed left to right. -/
def wl : Ty → List (String × Ty × Int) → List GLayer
  | _, [] => []
  | p, (n, c, z) :: ws => ⟨p, .word n c z, []⟩ :: wl (p ++ c) ws

def tys (ws : List (String × Ty × Int)) : Ty := (ws.map (·.2.1)).flatten

def Morphic (l : GLayer) : Prop := (∃ x y r, l.box = .cup x y r) ∨ ∃ x y, l.box = .swap x y

theorem loop_false {ls : List GLayer} (h : isPregroupLoop false ls = true) : ∀ l ∈ ls, Morphic l := by
  induction ls with
  | nil => simp
  | cons l ls ih =>
    intro m hm
    rw [isPregroupLoop.eq_def] at h
    rcases hb : l.box <;> simp only [hb] at h
    case cup x y r =>
      rcases List.mem_cons.1 hm with rfl | hm
      · exact .inl ⟨x, y, r, hb⟩
      · exact ih h m hm
    case swap x y =>
      rcases List.mem_cons.1 hm with rfl | hm
      · exact .inr ⟨x, y, hb⟩
      · exact ih h m hm
    all_goals exact absurd h (by simp)

theorem loop_true {ls : List GLayer} {a c : Ty} (hch : Chain a ls c) (h : isPregroupLoop true ls = true) :
    ∃ ws M, ls = wl a ws ++ M ∧ Chain (a ++ tys ws) M c ∧ ∀ l ∈ M, Morphic l := by
  induction ls generalizing a with
  | nil => exact ⟨[], [], by simp [wl], by simpa [tys] using hch, by simp⟩
  | cons l ls ih =>
    have h0 := h
    rw [isPregroupLoop.eq_def] at h
    obtain ⟨h1, h2⟩ := hch
    rcases hb : l.box <;> simp only [hb] at h
    case word n t z =>
      split at h
      · rename_i he
        have hr : l.right = [] := by simpa using he
        obtain ⟨lf, bx, rt⟩ := l
        simp only at hb hr
        subst hb hr
        have ha : lf = a := by rw [← h1]; simp [Layer.dom, BoxSig.dom, Box.dom]
        subst ha
        have hc : (Layer.cod (⟨lf, .word n t z, []⟩ : GLayer)) = lf ++ t := by simp [Layer.cod, BoxSig.cod, Box.cod]
        rw [hc] at h2
        obtain ⟨ws, M, e1, e2, e3⟩ := ih h2 h
        exact ⟨(n, t, z) :: ws, M, by simp [wl, e1], by simpa [tys] using e2, e3⟩
      · simp at h
    case cup x y r =>
      refine ⟨[], l :: ls, by simp [wl], by simpa [tys, Chain] using ⟨h1, h2⟩, ?_⟩
      intro m hm
      rcases List.mem_cons.1 hm with rfl | hm
      · exact .inl ⟨x, y, r, hb⟩
      · exact loop_false h m hm
    case swap x y =>
      refine ⟨[], l :: ls, by simp [wl], by simpa [tys, Chain] using ⟨h1, h2⟩, ?_⟩
      intro m hm
      rcases List.mem_cons.1 hm with rfl | hm
      · exact .inr ⟨x, y, hb⟩
      · exact loop_false h m hm
    all_goals exact absurd h (by simp)

theorem wl_loop (p : Ty) (ws : List (String × Ty × Int)) (M : List GLayer) (hM : ∀ l ∈ M, Morphic l) :
    isPregroupLoop true (wl p ws ++ M) = true := by
  have hf : ∀ (M : List GLayer) (b : Bool), (∀ l ∈ M, Morphic l) → isPregroupLoop b M = true := by
    intro M
    induction M with
    | nil => intro b _; rfl
    | cons l M ih =>
      intro b h
      rw [isPregroupLoop.eq_def]
      have h2 := ih false (fun l hl => h l (by simp [hl]))
      rcases h l (by simp) with ⟨x, y, r, hb⟩ | ⟨x, y, hb⟩ <;> simp [hb, h2]
  induction ws generalizing p with
  | nil => exact hf M true hM
  | cons w ws ih => obtain ⟨n, c, z⟩ := w; simp [wl, isPregroupLoop, ih]

theorem wl_chain (p : Ty) (ws : List (String × Ty × Int)) : Chain p (wl p ws) (p ++ tys ws) := by
  induction ws generalizing p with
  | nil => simp [wl, tys, Chain]
  | cons w ws ih =>
    obtain ⟨n, c, z⟩ := w
    refine ⟨by simp [Layer.dom, BoxSig.dom, Box.dom], ?_⟩
    have : (Layer.cod (⟨p, .word n c z, []⟩ : GLayer)) = p ++ c := by simp [Layer.cod, BoxSig.cod, Box.cod]
    rw [this]
    simpa [tys] using ih (p ++ c)

theorem wl_word {p : Ty} {ws : List (String × Ty × Int)} {l : GLayer} (h : l ∈ wl p ws) : isWord l.box = true := by
  induction ws generalizing p with
  | nil => simp [wl] at h
  | cons w ws ih =>
    obtain ⟨n, c, z⟩ := w
    rcases List.mem_cons.1 h with rfl | h
    · rfl
    · exact ih h

theorem morphic_word {l : GLayer} (h : Morphic l) : isWord l.box = false := by
  rcases h with ⟨x, y, r, hb⟩ | ⟨x, y, hb⟩ <;> rw [hb] <;> rfl

theorem filter_words (p : Ty) (ws : List (String × Ty × Int)) (M : List GLayer) (hM : ∀ l ∈ M, Morphic l) :
    ((wl p ws ++ M).map bo).filter (fun bo => isWord bo.1) = (wl p ws).map bo := by
  rw [List.map_append, List.filter_append, List.filter_eq_self.2, List.filter_eq_nil_iff.2, List.append_nil]
  · intro b hb
    obtain ⟨l, hl, rfl⟩ := List.mem_map.1 hb
    simp [bo, morphic_word (hM l hl)]
  · intro b hb
    obtain ⟨l, hl, rfl⟩ := List.mem_map.1 hb
    simp [bo, wl_word hl]

theorem filter_morphisms (p : Ty) (ws : List (String × Ty × Int)) (M : List GLayer) (hM : ∀ l ∈ M, Morphic l) :
    ((wl p ws ++ M).map bo).filter (fun bo => !isWord bo.1) = M.map bo := by
  rw [List.map_append, List.filter_append, List.filter_eq_nil_iff.2, List.filter_eq_self.2, List.nil_append]
  · intro b hb
    obtain ⟨l, hl, rfl⟩ := List.mem_map.1 hb
    simp [bo, morphic_word (hM l hl)]
  · intro b hb
    obtain ⟨l, hl, rfl⟩ := List.mem_map.1 hb
    simp [bo, wl_word hl]

theorem word_boxes (p : Ty) (ws : List (String × Ty × Int)) (M : List GLayer) (hM : ∀ l ∈ M, Morphic l) :
    ((wl p ws ++ M).map (·.box)).filter isWord = ws.map (fun w => .word w.1 w.2.1 w.2.2) := by
  rw [List.map_append, List.filter_append]
  have e1 : (M.map (·.box)).filter isWord = [] := by
    rw [List.filter_eq_nil_iff]
    intro b hb
    obtain ⟨l, hl, rfl⟩ := List.mem_map.1 hb
    simp [morphic_word (hM l hl)]
  have e2 : ∀ p, ((wl p ws).map (·.box)) = ws.map (fun w => Box.word w.1 w.2.1 w.2.2) := by
    induction ws with
    | nil => intro p; rfl
    | cons w ws ih => intro p; obtain ⟨n, c, z⟩ := w; simp [wl, ih]
  rw [e1, e2, List.append_nil, List.filter_eq_self]
  intro b hb
  obtain ⟨w, hw, rfl⟩ := List.mem_map.1 hb
  rfl

theorem atomic_types (p : Ty) (ws : List (String × Ty × Int)) (M : List GLayer) (hM : ∀ l ∈ M, Morphic l) (a c : Ty) :
    atomicTypes ⟨a, c, wl p ws ++ M⟩ = tys ws := by
  unfold atomicTypes Diagram.boxes
  rw [word_boxes p ws M hM]
  simp [tys, Box.cod, Function.comp_def]

/-! ## Phase 1 -/

theorem getElem?_pair {α : Type} {S1 S2 : List α} {i j : α} {k : Nat} (h : S1.length = k) :
    (S1 ++ [i, j] ++ S2)[k]? = some i ∧ (S1 ++ [i, j] ++ S2)[k + 1]? = some j := by
  subst h
  constructor <;> simp

theorem map_some_split {cur L R : Ty} {a b : Ob} {scan : List Nat} {types : Ty} (hc : cur = L ++ [a, b] ++ R)
    (h : cur.map some = scan.map (types[·]?)) :
    ∃ S1 i j S2, scan = S1 ++ [i, j] ++ S2 ∧ S1.length = L.length ∧ L.map some = S1.map (types[·]?) ∧
      types[i]? = some a ∧ types[j]? = some b ∧ R.map some = S2.map (types[·]?) := by
  subst hc
  rw [List.map_append, List.map_append, List.append_assoc] at h
  obtain ⟨S1, S', e1, e2, e3⟩ := List.append_eq_map_iff.1 h
  obtain ⟨S3, S2, e4, e5, e6⟩ := List.append_eq_map_iff.1 e3.symm
  subst e1 e4
  have hl : S3.length = 2 := by have := congrArg List.length e5; simpa using this
  match S3, hl with
  | [i, j], _ =>
    simp only [List.map_cons, List.map_nil, List.cons.injEq, and_true] at e5
    refine ⟨S1, i, j, S2, by simp, ?_, e2.symm, e5.1, e5.2, e6.symm⟩
    have := congrArg List.length e2; simpa using this

theorem map_getElem?_congr {S : List Nat} {t u : Ty} (h : ∀ i ∈ S, u[i]? = t[i]?) : S.map (u[·]?) = S.map (t[·]?) :=
  List.map_congr_left h

theorem swap_fold (M : List GLayer) (cur c types : Ty) (scan : List Nat) (hM : ∀ l ∈ M, Morphic l) (hch : Chain cur M c)
    (hcur : cur.map some = scan.map (types[·]?)) (hnd : scan.Nodup) :
    ∃ T scan' cur' M', (M.map bo).foldlM swapTypesStep (types, scan) = .ok (T, scan') ∧ T.Perm types ∧
      (∀ i, i ∉ scan → T[i]? = types[i]?) ∧ cur'.map some = scan.map (T[·]?) ∧ Chain cur' M' c ∧
      M'.map bo = (M.filter (fun l => !isSwap l.box)).map bo := by
  induction M generalizing cur types scan with
  | nil =>
    obtain rfl : cur = c := hch
    exact ⟨types, scan, cur, [], rfl, List.Perm.refl _, fun _ _ => rfl, hcur, rfl, rfl⟩
  | cons l M ih =>
    obtain ⟨h1, h2⟩ := hch
    have hM' : ∀ l ∈ M, Morphic l := fun l hl => hM l (by simp [hl])
    obtain ⟨L, bx, R⟩ := l
    rcases hM ⟨L, bx, R⟩ (by simp) with ⟨x, y, r, hb⟩ | ⟨x, y, hb⟩
    · simp only at hb
      subst hb
      have e1 : cur = L ++ [x, y] ++ R := by rw [← h1]; simp [Layer.dom, BoxSig.dom, Box.dom]
      have e2 : (Layer.cod (⟨L, .cup x y r, R⟩ : GLayer)) = L ++ R := by simp [Layer.cod, BoxSig.cod, Box.cod]
      rw [e2] at h2
      obtain ⟨S1, i, j, S2, rfl, s1, s2, s3, s4, s5⟩ := map_some_split e1 hcur
      have hnd' : (S1 ++ S2).Nodup := by
        rw [List.append_assoc] at hnd
        exact hnd.sublist (List.append_sublist_append_left _ |>.2 (List.sublist_append_right _ _))
      have hij : i ∉ S1 ++ S2 ∧ j ∉ S1 ++ S2 := by
        have hp : (i :: j :: (S1 ++ S2)).Nodup := by
          refine (List.Perm.nodup_iff ?_).1 hnd
          rw [List.append_assoc]
          exact (List.perm_append_comm_assoc S1 [i, j] S2)
        simp only [List.nodup_cons, List.mem_cons, not_or] at hp
        exact ⟨hp.1.2, hp.2.1⟩
      obtain ⟨T, scan', cur', M', f1, f2, f3, f4, f5, f6⟩ := ih (L ++ R) types (S1 ++ S2) hM' h2
        (by rw [List.map_append, List.map_append, s2, s5]) hnd'
      rw [List.map_append] at f4
      obtain ⟨L', R', g1, g2, g3⟩ := List.map_eq_append_iff.1 f4
      have hl' : L'.length = L.length := by
        have := congrArg List.length g2
        simp at this
        rw [this, s1]
      refine ⟨T, scan', L' ++ [x, y] ++ R', ⟨L', .cup x y r, R'⟩ :: M', ?_, f2, ?_, ?_, ?_, ?_⟩
      · rw [List.map_cons, List.foldlM_cons]
        have : swapTypesStep (types, S1 ++ [i, j] ++ S2) (bo ⟨L, .cup x y r, R⟩) = .ok (types, S1 ++ S2) := by
          simp only [swapTypesStep, bo]
          rw [show (S1 ++ [i, j] ++ S2).take L.length = S1 by rw [← s1]; simp,
            show (S1 ++ [i, j] ++ S2).drop (L.length + 2) = S2 by
              rw [← s1, List.append_assoc, List.drop_append]; simp]
        rw [this, ok_bind]
        exact f1
      · intro k hk
        exact f3 k (fun h => hk (by simp only [List.mem_append] at h ⊢; tauto))
      · rw [List.map_append, List.map_append, List.map_append, List.map_append, g2, g3]
        simp [f3 i hij.1, f3 j hij.2, s3, s4]
      · refine ⟨by simp [Layer.dom, BoxSig.dom, Box.dom], ?_⟩
        have : (Layer.cod (⟨L', .cup x y r, R'⟩ : GLayer)) = L' ++ R' := by simp [Layer.cod, BoxSig.cod, Box.cod]
        rw [this, ← g1]
        exact f5
      · simp [isSwap, f6, bo, hl']
    · simp only at hb
      subst hb
      have e1 : cur = L ++ [x, y] ++ R := by rw [← h1]; simp [Layer.dom, BoxSig.dom, Box.dom]
      have e2 : (Layer.cod (⟨L, .swap x y, R⟩ : GLayer)) = L ++ [y, x] ++ R := by simp [Layer.cod, BoxSig.cod, Box.cod]
      rw [e2] at h2
      obtain ⟨S1, i, j, S2, rfl, s1, s2, s3, s4, s5⟩ := map_some_split e1 hcur
      have hp : (i :: j :: (S1 ++ S2)).Nodup := by
        refine (List.Perm.nodup_iff ?_).1 hnd
        rw [List.append_assoc]
        exact (List.perm_append_comm_assoc S1 [i, j] S2)
      simp only [List.nodup_cons, List.mem_cons, not_or, List.mem_append] at hp
      obtain ⟨⟨hne, hi1, hi2⟩, ⟨hj1, hj2⟩, -⟩ := hp
      obtain ⟨hi, hix⟩ := List.getElem?_eq_some_iff.1 s3
      obtain ⟨hj, hjy⟩ := List.getElem?_eq_some_iff.1 s4
      have hget : ∀ k, k ≠ i → k ≠ j → ((types.set i y).set j x)[k]? = types[k]? := by
        intro k h1 h2
        rw [List.getElem?_set_ne (Ne.symm h2), List.getElem?_set_ne (Ne.symm h1)]
      have hgi : ((types.set i y).set j x)[i]? = some y := by
        rw [List.getElem?_set_ne (Ne.symm hne), List.getElem?_set_self hi]
      have hgj : ((types.set i y).set j x)[j]? = some x := by
        rw [List.getElem?_set_self (by simpa using hj)]
      obtain ⟨T, scan', cur', M', f1, f2, f3, f4, f5, f6⟩ := ih (L ++ [y, x] ++ R) ((types.set i y).set j x)
        (S1 ++ [i, j] ++ S2) hM' h2 (by
          simp only [List.map_append, List.map_cons, List.map_nil, s2, s5, hgi, hgj]
          congr 1
          · congr 1
            exact map_getElem?_congr (fun k hk => (hget k (fun h => hi1 (h ▸ hk)) (fun h => hj1 (h ▸ hk))).symm)
          · exact map_getElem?_congr (fun k hk => (hget k (fun h => hi2 (h ▸ hk)) (fun h => hj2 (h ▸ hk))).symm)) hnd
      refine ⟨T, scan', cur', M', ?_, ?_, ?_, f4, f5, ?_⟩
      · rw [List.map_cons, List.foldlM_cons]
        have : swapTypesStep (types, S1 ++ [i, j] ++ S2) (bo ⟨L, .swap x y, R⟩)
            = .ok ((types.set i y).set j x, S1 ++ [i, j] ++ S2) := by
          obtain ⟨p1, p2⟩ := getElem?_pair (S1 := S1) (S2 := S2) (i := i) (j := j) s1
          simp only [swapTypesStep, bo, p1, p2, s3, s4]
        rw [this, ok_bind]
        exact f1
      · refine f2.trans ?_
        have := List.set_set_perm hi hj
        rwa [hix, hjy] at this
      · intro k hk
        rw [f3 k hk]
        exact hget k (fun h => hk (by simp [h])) (fun h => hk (by simp [h]))
      · simp [isSwap, f6]

/-- The words with the types after the exchange. -/
def retype (T : Ty) : List (String × Ty × Int) → List (String × Ty × Int)
  | [] => []
  | (n, c, z) :: ws => (n, T.take c.length, 0) :: retype (T.drop c.length) ws

theorem tys_retype (T : Ty) (ws : List (String × Ty × Int)) (h : T.length = (tys ws).length) : tys (retype T ws) = T := by
  induction ws generalizing T with
  | nil => simp [tys] at h; subst h; rfl
  | cons w ws ih =>
    obtain ⟨n, c, z⟩ := w
    have : tys ((n, c, z) :: ws) = c ++ tys ws := by simp [tys]
    rw [this] at h
    have e := ih (T.drop c.length) (by simp at h ⊢; omega)
    have : tys (retype T ((n, c, z) :: ws)) = T.take c.length ++ tys (retype (T.drop c.length) ws) := by simp [tys, retype]
    rw [this, e, List.take_append_drop]

theorem words_fold (T : Ty) (ws : List (String × Ty × Int)) (p : Ty) (pre : GDiagram)
    (hT : T.length = p.length + (tys ws).length) (hpre : pre.cod = T.take p.length) :
    ((wl p ws).map bo).foldlM (fun (acc : GDiagram) bo => thenAt acc
      (ofBox (.word (Rewrite.boxName bo.1) (pySlice T (some (bo.2 : Int)) (some ((bo.2 + bo.1.cod.length : Nat) : Int))) 0))
      (bo.2 : Int)) pre
      = .ok ⟨pre.dom, T, pre.layers ++ wl (T.take p.length) (retype (T.drop p.length) ws)⟩ := by
  induction ws generalizing p pre with
  | nil =>
    simp only [tys, List.map_nil, List.flatten_nil, List.length_nil, Nat.add_zero] at hT
    have : T.take p.length = T := by rw [List.take_of_length_le (by omega)]
    rw [this] at hpre
    obtain ⟨d, c, ls⟩ := pre
    simp only at hpre
    subst hpre
    simp [wl, retype]; rfl
  | cons w ws ih =>
    obtain ⟨n, c, z⟩ := w
    have e : tys ((n, c, z) :: ws) = c ++ tys ws := by simp [tys]
    rw [e] at hT
    simp only [List.length_append] at hT
    have hl : (T.take p.length).length = p.length := by rw [List.length_take]; omega
    simp only [wl, List.map_cons, List.foldlM_cons, bo]
    rw [pySlice_nat_nat]
    have hc : (Box.word n c z).cod = c := by simp [Box.cod]
    rw [hc, show p.length + c.length - p.length = c.length by omega]
    have hn : Rewrite.boxName (.word n c z) = n := rfl
    rw [hn]
    have ht := thenAt_eq (d := pre) (g := ofBox (.word n ((T.drop p.length).take c.length) 0)) (T.take p.length) []
      (by rw [hpre]; simp [ofBox, BoxSig.dom, Box.dom])
    rw [hl] at ht
    rw [ht, ok_bind]
    have hcod : T.take p.length ++ (T.drop p.length).take c.length = T.take (p ++ c).length := by
      rw [List.length_append, List.take_add]
    have := ih (p ++ c) ⟨pre.dom, T.take p.length ++ (T.drop p.length).take c.length,
      pre.layers ++ [⟨T.take p.length, .word n ((T.drop p.length).take c.length) 0, []⟩]⟩
      (by simp; omega) hcod
    simp only [bo] at this
    refine Eq.trans ?_ (this.trans ?_)
    · congr 1
      simp [ofBox, BoxSig.cod, BoxSig.dom, Box.cod, Layer.extend]
    simp only [retype, wl, List.append_assoc, List.cons_append, List.nil_append, List.drop_drop, List.length_append, List.take_add]

theorem phase1 (d : GDiagram) (hd : d.WT) (hp : isPregroup d = true) :
    ∃ ws M T M', d.layers = wl [] ws ++ M ∧ (∀ l ∈ M, Morphic l) ∧ T.Perm (tys ws) ∧
      removeSwapsPhase1 d = .ok ⟨[], d.cod, wl [] (retype T ws) ++ M'⟩ ∧ Chain T M' d.cod ∧
      M'.map bo = (M.filter (fun l => !isSwap l.box)).map bo := by
  obtain ⟨a, c, ls⟩ := d
  unfold isPregroup at hp
  split at hp
  · simp at hp
  rename_i hdom
  have ha : a = [] := by simpa using hdom
  subst ha
  obtain ⟨ws, M, e1, e2, e3⟩ := loop_true hd hp
  simp only at e1
  subst e1
  rw [List.nil_append] at e2
  obtain ⟨T, scan', cur', M', f1, f2, f3, f4, f5, f6⟩ := swap_fold M (tys ws) c (tys ws) (List.range (tys ws).length) e3 e2
    (by
      refine List.ext_getElem? (fun k => ?_)
      by_cases hk : k < (tys ws).length
      · simp [hk]
      · simp [hk]) List.nodup_range
  have hTl := f2.length_eq
  have hcur : cur' = T := by
    have h1 : (List.range (tys ws).length).map (T[·]?) = T.map some := by
      refine List.ext_getElem? (fun k => ?_)
      by_cases hk : k < (tys ws).length
      · simp [hk, hTl]
      · simp [hk, hTl]
    rw [h1] at f4
    exact List.map_injective_iff.2 (Option.some_injective _) f4
  subst hcur
  refine ⟨ws, M, cur', M', rfl, e3, f2, ?_, f5, f6⟩
  unfold removeSwapsPhase1
  simp only [Diagram.boxes, Diagram.offsets, zip_bo]
  rw [filter_words [] ws M e3, filter_morphisms [] ws M e3, atomic_types [] ws M e3 [] c, f1, ok_bind]
  have hw := words_fold cur' ws [] (Diagram.id []) (by simpa using hTl) (by simp [Diagram.id])
  rw [hw, ok_bind]
  have hm : ∀ (N : List GLayer) (pre : GDiagram), (∀ l ∈ N, Morphic l) →
      (N.map bo).foldlM (fun acc bo => match bo.1 with
        | .swap _ _ => .ok acc
        | b => thenAt acc (ofBox b) (bo.2 : Int)) pre
      = ((N.filter (fun l => !isSwap l.box)).map bo).foldlM (fun acc bo => thenAt acc (ofBox bo.1) (bo.2 : Int)) pre := by
    intro N
    induction N with
    | nil => intro pre _; rfl
    | cons l N ih =>
      intro pre hN
      obtain ⟨L, bx, R⟩ := l
      have ih' := fun pre => ih pre (fun l hl => hN l (by simp [hl]))
      rcases hN ⟨L, bx, R⟩ (by simp) with ⟨x, y, r, hb⟩ | ⟨x, y, hb⟩
      · simp only at hb
        subst hb
        rw [List.map_cons, List.foldlM_cons, List.filter_cons_of_pos (by rfl), List.map_cons, List.foldlM_cons]
        simp only [bo]
        refine congrArg _ ?_
        funext pre
        exact ih' pre
      · simp only at hb
        subst hb
        rw [List.map_cons, List.foldlM_cons, List.filter_cons_of_neg (by simp [isSwap])]
        simp only [bo]
        exact ih' pre
  refine (hm M _ e3).trans ?_
  rw [← f6]
  have := rebuild (pre := ⟨[], cur', wl [] (retype cur' ws)⟩) f5
  simpa [Diagram.id] using this

/-! ## Phase 2 without detached cups -/

theorem noSelf_filter (M : List GLayer) (ow : List Nat) (h : NoSelfCup ow (M.map bo)) :
    NoSelfCup ow ((M.filter (fun l => !isSwap l.box)).map bo) := by
  induction M generalizing ow with
  | nil => trivial
  | cons l M ih =>
    obtain ⟨L, bx, R⟩ := l
    cases bx <;> simp only [List.map_cons, bo, NoSelfCup, List.filter_cons, isSwap, Bool.not_false, Bool.not_true,
      if_true, Bool.false_eq_true, if_false] at h ⊢
    case cup => exact ⟨h.1, ih _ h.2⟩
    all_goals exact ih _ h

theorem scan_morphisms (O : List Nat) (M : List GLayer) (cur c : Ty) (ow scan : List Nat)
    (hM : ∀ l ∈ M, ∃ x y r, l.box = .cup x y r) (hch : Chain cur M c) (hlen : cur.length = scan.length)
    (hns : NoSelfCup ow (M.map bo)) (how : ow.map some = scan.map (O[·]?)) :
    ∃ ms, scanMorphisms (M.map bo) scan = .ok ms ∧ ms.map (fun m => (m.box, m.offset)) = M.map bo ∧
      (∀ m ∈ ms, m.deleted = false) ∧ ∀ m ∈ ms, O[m.start]? ≠ O[m.stop]? := by
  induction M generalizing cur ow scan with
  | nil => exact ⟨[], rfl, rfl, by simp, by simp⟩
  | cons l M ih =>
    obtain ⟨h1, h2⟩ := hch
    obtain ⟨L, bx, R⟩ := l
    obtain ⟨x, y, r, hb⟩ := hM ⟨L, bx, R⟩ (by simp)
    simp only at hb
    subst hb
    have e1 : cur = L ++ [x, y] ++ R := by rw [← h1]; simp [Layer.dom, BoxSig.dom, Box.dom]
    have e2 : (Layer.cod (⟨L, .cup x y r, R⟩ : GLayer)) = L ++ R := by simp [Layer.cod, BoxSig.cod, Box.cod]
    rw [e2] at h2
    have hl : L.length + 2 + R.length = scan.length := by rw [← hlen, e1]; simp; omega
    obtain ⟨n1, n2⟩ : ow[L.length]? ≠ ow[L.length + 1]? ∧ NoSelfCup (ow.take L.length ++ ow.drop (L.length + 2)) (M.map bo) := hns
    have g1 : scan[L.length]? = some scan[L.length] := List.getElem?_eq_getElem (by omega)
    have g2 : scan[L.length + 1]? = some scan[L.length + 1] := List.getElem?_eq_getElem (by omega)
    obtain ⟨ms, f1, f2, f3, f4⟩ := ih (L ++ R) _ (scan.take L.length ++ scan.drop (L.length + 2))
      (fun l hl => hM l (by simp [hl])) h2 (by simp; omega) n2
      (by rw [List.map_append, List.map_take, List.map_drop, how, List.map_append, List.map_take, List.map_drop])
    refine ⟨⟨.cup x y r, scan[L.length], scan[L.length + 1], L.length, false⟩ :: ms, ?_, ?_, ?_, ?_⟩
    · simp only [List.map_cons, bo, scanMorphisms]
      have hd : (Box.cup x y r).dom.length = 2 := by simp [Box.dom]
      have hp : pyGet scan ((L.length : Int) + ((2 : Nat) : Int) - 1) = .ok scan[L.length + 1] := by
        rw [show ((L.length : Int) + ((2 : Nat) : Int) - 1) = ((L.length + 1 : Nat) : Int) by omega]
        have hk : (if ((L.length + 1 : Nat) : Int) < 0 then (scan.length : Int) + ((L.length + 1 : Nat) : Int)
          else ((L.length + 1 : Nat) : Int)) = ((L.length + 1 : Nat) : Int) := if_neg (by omega)
        simp only [pyGet, hk]
        rw [if_neg (by omega), Int.toNat_natCast, g2]
      rw [hd, g1, hp]
      have : isCup (.cup x y r) = true := rfl
      simp only [this, if_true]
      rw [f1, ok_bind]
    · simp [bo] at f2 ⊢; exact f2
    · intro m hm
      rcases List.mem_cons.1 hm with rfl | hm
      · rfl
      · exact f3 m hm
    · intro m hm
      rcases List.mem_cons.1 hm with rfl | hm
      · simp only
        have hk : ∀ k, (hk : k < scan.length) → ow[k]? = O[scan[k]]? := by
          intro k hk
          have := congrArg (·[k]?) how
          simp only [List.getElem?_map] at this
          rw [List.getElem?_eq_getElem hk] at this
          cases ho : ow[k]? with
          | none => rw [ho] at this; simp at this
          | some v => rw [ho] at this; simpa using this
        rw [← hk _ (by omega), ← hk _ (by omega)]
        exact n1
      · exact f4 m hm

theorem scanWord_id (lo hi : Nat) (ms : List Morphism) (h : ∀ m ∈ ms, detachedIn lo hi m = false) :
    scanWord lo hi ms = (List.range' lo (hi - lo), ms) := by
  unfold scanWord
  congr 1
  · generalize List.range' lo (hi - lo) = s
    induction ms generalizing s with
    | nil => rfl
    | cons m ms ih =>
      rw [List.foldl_cons, h m (by simp)]
      exact ih (fun m hm => h m (by simp [hm])) s
  · conv_rhs => rw [← List.map_id ms]
    refine List.map_congr_left (fun m hm => ?_)
    rw [h m hm]; rfl

theorem newWords_id (types : Ty) (ws : List (String × Ty × Int × Nat)) (ms : List Morphism)
    (h : ∀ w ∈ ws, ∀ m ∈ ms, detachedIn w.2.2.2 (w.2.2.2 + w.2.1.length) m = false) :
    newWords types ws ms = .ok (ws.map (fun w => (w.1, w.2.1, w.2.2.1)), ms) := by
  induction ws with
  | nil => simp [newWords]
  | cons w ws ih =>
    obtain ⟨n, c, z, off⟩ := w
    rw [newWords.eq_def]
    simp only
    have := scanWord_id off (off + c.length) ms (h (n, c, z, off) (by simp))
    simp only [this]
    rw [if_pos (by simp), ih (fun w hw => h w (by simp [hw])), ok_bind]
    rfl

theorem newMorphisms_id (ms : List Morphism) (before : List Morphism) (offs : List Int) (h : ∀ m ∈ ms, m.deleted = false) :
    newMorphisms before ms offs = .ok (ms.map (·.box), offs ++ ms.map (fun m => (m.offset : Int))) := by
  induction ms generalizing before offs with
  | nil => simp [newMorphisms]
  | cons m ms ih =>
    rw [newMorphisms, h m (by simp)]
    simp only [Bool.not_false, if_true]
    rw [ih _ _ (fun m hm => h m (by simp [hm])), ok_bind]
    simp

/-- The words of `wl p ws` with their offsets. -/
def wordItems (k : Nat) : List (String × Ty × Int) → List (String × Ty × Int × Nat)
  | [] => []
  | (n, c, z) :: ws => (n, c, z, k) :: wordItems (k + c.length) ws

theorem wordItems_eq (p : Ty) (ws : List (String × Ty × Int)) (M : List GLayer) (hM : ∀ l ∈ M, Morphic l) :
    ((wl p ws ++ M).map bo).filterMap wordItem = wordItems p.length ws := by
  induction ws generalizing p with
  | nil =>
    simp only [wl, List.nil_append, wordItems]
    rw [List.filterMap_eq_nil_iff]
    intro b hb
    obtain ⟨l, hl, rfl⟩ := List.mem_map.1 hb
    rcases hM l hl with ⟨x, y, r, hb⟩ | ⟨x, y, hb⟩ <;> simp [bo, hb, wordItem]
  | cons w ws ih =>
    obtain ⟨n, c, z⟩ := w
    simp only [wl, List.cons_append, List.map_cons, bo, wordItems]
    rw [List.filterMap_cons_some (by rfl)]
    have := ih (p ++ c)
    rw [List.length_append] at this
    rw [← this]

theorem wordItems_strip (k : Nat) (ws : List (String × Ty × Int)) :
    (wordItems k ws).map (fun w => (w.1, w.2.1, w.2.2.1)) = ws := by
  induction ws generalizing k with
  | nil => rfl
  | cons w ws ih => obtain ⟨n, c, z⟩ := w; simp [wordItems, ih]

theorem wordItems_place (p : Ty) (ws : List (String × Ty × Int)) :
    (ws.zip (wordOffsets p.length ws)).map (fun wo => (Box.word wo.1.1 wo.1.2.1 wo.1.2.2, (wo.2 : Int)))
      = (wl p ws).map (fun l => (l.box, (l.left.length : Int))) := by
  induction ws generalizing p with
  | nil => rfl
  | cons w ws ih =>
    obtain ⟨n, c, z⟩ := w
    have := ih (p ++ c)
    rw [List.length_append] at this
    simp [wordOffsets, wl, this]

/-- The owners of the wires of words `ws`, numbered from `k`. -/
def ownersFrom (k : Nat) : List (String × Ty × Int) → List Nat
  | [] => []
  | (n, c, z) :: ws => List.replicate c.length k ++ ownersFrom (k + 1) ws

theorem owners_eq (a c p : Ty) (ws : List (String × Ty × Int)) (M : List GLayer) (hM : ∀ l ∈ M, Morphic l) :
    owners ⟨a, c, wl p ws ++ M⟩ = ownersFrom 0 ws := by
  unfold owners Diagram.boxes
  rw [word_boxes p ws M hM]
  generalize 0 = k
  induction ws generalizing k with
  | nil => rfl
  | cons w ws ih => obtain ⟨n, c, z⟩ := w; simp [ownersFrom, ih, Box.cod]

theorem ownersFrom_length (k : Nat) (ws : List (String × Ty × Int)) : (ownersFrom k ws).length = (tys ws).length := by
  induction ws generalizing k with
  | nil => rfl
  | cons w ws ih =>
    obtain ⟨n, c, z⟩ := w
    have : tys ((n, c, z) :: ws) = c ++ tys ws := by simp [tys]
    simp [ownersFrom, ih, this]

theorem ownersFrom_retype (k : Nat) (T : Ty) (ws : List (String × Ty × Int)) (h : T.length = (tys ws).length) :
    ownersFrom k (retype T ws) = ownersFrom k ws := by
  induction ws generalizing k T with
  | nil => rfl
  | cons w ws ih =>
    obtain ⟨n, c, z⟩ := w
    have e : tys ((n, c, z) :: ws) = c ++ tys ws := by simp [tys]
    rw [e, List.length_append] at h
    simp only [retype, ownersFrom]
    rw [ih _ _ (by simp; omega), List.length_take, Nat.min_eq_left (by omega)]

theorem ownersFrom_word (k : Nat) (pre : List Nat) (ws : List (String × Ty × Int)) :
    ∀ w ∈ wordItems pre.length ws, ∃ j, ∀ i, w.2.2.2 ≤ i → i < w.2.2.2 + w.2.1.length → (pre ++ ownersFrom k ws)[i]? = some j := by
  induction ws generalizing k pre with
  | nil => simp [wordItems]
  | cons w ws ih =>
    obtain ⟨n, c, z⟩ := w
    intro w hw
    rcases List.mem_cons.1 hw with rfl | hw
    · refine ⟨k, fun i h1 h2 => ?_⟩
      simp only at h1 h2
      rw [List.getElem?_append_right h1, ownersFrom, List.getElem?_append_left (by simp; omega),
        List.getElem?_replicate, if_pos (by omega)]
    · have := ih (k + 1) (pre ++ List.replicate c.length k) w (by simpa using hw)
      simpa [ownersFrom] using this

theorem phase2 (ws : List (String × Ty × Int)) (M : List GLayer) (c : Ty) (hM : ∀ l ∈ M, ∃ x y r, l.box = .cup x y r)
    (hch : Chain (tys ws) M c) (hns : NoSelfCup (ownersFrom 0 ws) (M.map bo)) :
    removeDetachedCups ⟨[], c, wl [] ws ++ M⟩ = .ok ⟨[], c, wl [] ws ++ M⟩ := by
  have hM' : ∀ l ∈ M, Morphic l := fun l hl => .inl (hM l hl)
  unfold removeDetachedCups
  have hp : isPregroup (⟨[], c, wl [] ws ++ M⟩ : GDiagram) = true := by
    unfold isPregroup; simp [wl_loop [] ws M hM']
  rw [if_neg (by simp [hp])]
  simp only [Diagram.boxes, Diagram.offsets, zip_bo]
  rw [filter_morphisms [] ws M hM', wordItems_eq [] ws M hM', atomic_types [] ws M hM' [] c]
  obtain ⟨ms, f1, f2, f3, f4⟩ := scan_morphisms (ownersFrom 0 ws) M (tys ws) c (ownersFrom 0 ws) (List.range (tys ws).length)
    hM hch (by simp) hns (by
      rw [← ownersFrom_length 0 ws]
      refine List.ext_getElem? (fun k => ?_)
      by_cases hk : k < (ownersFrom 0 ws).length
      · simp [hk]
      · simp [hk])
  rw [f1, ok_bind]
  rw [newWords_id (tys ws) (wordItems ([] : Ty).length ws) ms ?_, ok_bind, wordItems_strip]
  · simp only
    rw [newMorphisms_id ms [] [] f3, ok_bind]
    simp only [List.nil_append]
    have hz : (ms.map (·.box)).zip (ms.map (fun m => (m.offset : Int))) = M.map (fun l => (l.box, (l.left.length : Int))) := by
      have : (ms.map (fun m => (m.box, m.offset))).map (fun bo => (bo.1, (bo.2 : Int)))
          = (M.map bo).map (fun bo => (bo.1, (bo.2 : Int))) := by rw [f2]
      simp only [List.map_map] at this
      rw [List.zip_map']
      exact this
    rw [hz]
    have hw := wordItems_place [] ws
    simp only [List.length_nil] at hw
    rw [hw, ← List.map_append]
    have := rebuild (pre := (Diagram.id [] : GDiagram)) (ls := wl [] ws ++ M) (c := c) (Chain.append (wl_chain [] ws) (by simpa using hch))
    rw [List.foldlM_map] at this ⊢
    simpa [Diagram.id, bo] using this
  · intro w hw m hm
    obtain ⟨j, hj⟩ := ownersFrom_word 0 [] ws w hw
    simp only [List.nil_append] at hj
    by_contra hc
    have hc : detachedIn w.2.2.2 (w.2.2.2 + w.2.1.length) m = true := by simpa using hc
    simp only [detachedIn, Bool.and_eq_true, decide_eq_true_eq] at hc
    refine f4 m hm ?_
    rw [hj _ hc.1.2.1 hc.1.2.2, hj _ hc.2.1 hc.2.2]

theorem wordShapes_retype (T : Ty) (ws : List (String × Ty × Int)) (h : T.length = (tys ws).length) :
    (retype T ws).map (fun w => (w.1, w.2.1.length)) = ws.map (fun w => (w.1, w.2.1.length)) := by
  induction ws generalizing T with
  | nil => rfl
  | cons w ws ih =>
    obtain ⟨n, c, z⟩ := w
    have e : tys ((n, c, z) :: ws) = c ++ tys ws := by simp [tys]
    rw [e, List.length_append] at h
    simp only [retype, List.map_cons]
    rw [ih _ (by simp; omega), List.length_take, Nat.min_eq_left (by omega)]

theorem wordShapes_eq (a c p : Ty) (ws : List (String × Ty × Int)) (M : List GLayer) (hM : ∀ l ∈ M, Morphic l) :
    wordShapes ⟨a, c, wl p ws ++ M⟩ = ws.map (fun w => (w.1, w.2.1.length)) := by
  unfold wordShapes Diagram.boxes
  rw [word_boxes p ws M hM]
  simp [Box.cod, Rewrite.boxName, Function.comp_def]

/-- **C59, partial.** For every well-typed pregroup diagram in which no cup ends up joining two wires of one word,
`RemoveSwapsRewriter` returns a well-typed pregroup diagram from the empty type to the same codomain. It has no
swaps; its words are those of the input, in order, with the same names and numbers of wires; its cups are those of
the input, in order, at the same offsets; and the atomic types of the words are those of the input, rearranged.
Missing: diagrams with such cups, see the refutations below. -/
theorem C59_remove_swaps_partial (d : GDiagram) (hd : d.WT) (hp : isPregroup d = true)
    (hs : NoSelfCup (owners d) ((d.boxes.zip d.offsets).filter (fun bo => !isWord bo.1))) :
    ∃ r, removeSwaps d = .ok r ∧ r.WT ∧ r.dom = [] ∧ r.cod = d.cod ∧ isPregroup r = true ∧
      (∀ b ∈ r.boxes, isSwap b = false) ∧ wordShapes r = wordShapes d ∧
      (r.boxes.zip r.offsets).filter (fun bo => isCup bo.1) = (d.boxes.zip d.offsets).filter (fun bo => isCup bo.1) ∧
      (atomicTypes r).Perm (atomicTypes d) ∧ (d.Valid → r.Valid) := by
  obtain ⟨ws, M, T, M', e1, e2, e3, e4, e5, e6⟩ := phase1 d hd hp
  obtain ⟨a, c, ls⟩ := d
  simp only at e1 e4 e5
  subst e1
  have hlen := e3.length_eq
  have hM' : ∀ l ∈ M', ∃ x y r, l.box = .cup x y r := by
    intro l hl
    have : bo l ∈ M'.map bo := List.mem_map_of_mem hl
    rw [e6] at this
    obtain ⟨k, hk, hkl⟩ := List.mem_map.1 this
    obtain ⟨hk1, hk2⟩ := List.mem_filter.1 hk
    have hb : l.box = k.box := by have := congrArg Prod.fst hkl; simpa [bo] using this.symm
    rw [hb]
    rcases e2 k hk1 with h | ⟨x, y, h⟩
    · exact h
    · rw [h] at hk2; simp [isSwap] at hk2
  have hMm : ∀ l ∈ M', Morphic l := fun l hl => .inl (hM' l hl)
  have hT : tys (retype T ws) = T := tys_retype T ws hlen
  have hch : Chain (tys (retype T ws)) M' c := by rw [hT]; exact e5
  simp only [Diagram.boxes, Diagram.offsets, zip_bo] at hs
  rw [filter_morphisms [] ws M e2, owners_eq a c [] ws M e2] at hs
  have h2 := phase2 (retype T ws) M' c hM' hch (by
    rw [ownersFrom_retype 0 T ws hlen, e6]; exact noSelf_filter M _ hs)
  refine ⟨⟨[], c, wl [] (retype T ws) ++ M'⟩, ?_, Chain.append (wl_chain [] (retype T ws)) (by simpa using hch), rfl, rfl, ?_, ?_, ?_, ?_, ?_, ?_⟩
  · unfold removeSwaps
    rw [e4, ok_bind]
    exact h2
  · unfold isPregroup; simp [wl_loop [] _ M' hMm]
  · intro b hb
    simp only [Diagram.boxes, List.map_append, List.mem_append, List.mem_map] at hb
    rcases hb with ⟨l, hl, rfl⟩ | ⟨l, hl, rfl⟩
    · have := wl_word hl
      cases hb : l.box <;> rw [hb] at this <;> simp [isWord] at this
      rfl
    · obtain ⟨x, y, r, h⟩ := hM' l hl
      rw [h]; rfl
  · rw [wordShapes_eq [] c [] _ M' hMm, wordShapes_eq a c [] ws M e2, wordShapes_retype T ws hlen]
  · simp only [Diagram.boxes, Diagram.offsets, zip_bo]
    have hf : ∀ (p : Ty) (ws : List (String × Ty × Int)), ((wl p ws).map bo).filter (fun bo => isCup bo.1) = [] := by
      intro p ws
      rw [List.filter_eq_nil_iff]
      intro b hb
      obtain ⟨l, hl, rfl⟩ := List.mem_map.1 hb
      have := wl_word hl
      cases hb : l.box <;> rw [hb] at this <;> simp [isWord] at this
      simp [bo, hb, isCup]
    rw [List.map_append, List.filter_append, hf, List.map_append, List.filter_append, hf, List.nil_append, List.nil_append, e6,
      List.filter_map, List.filter_map, List.filter_filter]
    congr 1
    refine List.filter_congr (fun l hl => ?_)
    rcases e2 l hl with ⟨x, y, r, h⟩ | ⟨x, y, h⟩ <;> simp [bo, h, isCup, isSwap]
  · rw [atomic_types [] _ M' hMm, atomic_types [] ws M e2, hT]
    exact e3
  · intro hv l hl
    simp only [List.mem_append] at hl
    rcases hl with hl | hl
    · have := wl_word hl
      cases hb : l.box <;> rw [hb] at this <;> simp [isWord] at this
      simp [Box.Valid]
    · have : bo l ∈ M'.map bo := List.mem_map_of_mem hl
      rw [e6] at this
      obtain ⟨k, hk, hkl⟩ := List.mem_map.1 this
      have hb : l.box = k.box := by have := congrArg Prod.fst hkl; simpa [bo] using this.symm
      rw [hb]
      exact hv k (by simp [(List.mem_filter.1 hk).1])

/-- Non-vacuity: `A : n`, `B : s ⊗ n.r`, a swap inside `B` and a cup. -/
example :
    let n : Ob := ⟨"n", 0⟩; let nr : Ob := ⟨"n", 1⟩; let s : Ob := ⟨"s", 0⟩
    let d : GDiagram := ⟨[], [s], [⟨[], .word "A" [n] 0, []⟩, ⟨[n], .word "B" [s, nr] 0, []⟩, ⟨[n], .swap s nr, []⟩,
      ⟨[], .cup n nr false, [s]⟩]⟩
    d.WT ∧ isPregroup d = true ∧ NoSelfCup (owners d) ((d.boxes.zip d.offsets).filter (fun bo => !isWord bo.1)) ∧
      removeSwaps d = .ok ⟨[], [s], [⟨[], .word "A" [n] 0, []⟩, ⟨[n], .word "B" [nr, s] 0, []⟩, ⟨[], .cup n nr false, [s]⟩]⟩ := by
  refine ⟨by decide, by decide, ?_, by decide +kernel⟩
  exact ⟨by decide, trivial⟩

/-- **C59, refuted.** `A : n ⊗ n.r ⊗ n ⊗ n.r`, `B : s` with the two cups inside `A`: the returned diagram has
codomain `n ⊗ n.r ⊗ s` although the input had codomain `s`. -/
theorem C59_refuted_codomain : ∃ d r : GDiagram, d.WT ∧ d.Valid ∧ isPregroup d = true ∧ removeSwaps d = .ok r ∧
    d.cod = [⟨"s", 0⟩] ∧ r.cod = [⟨"n", 0⟩, ⟨"n", 1⟩, ⟨"s", 0⟩] := by
  let n : Ob := ⟨"n", 0⟩; let nr : Ob := ⟨"n", 1⟩; let s : Ob := ⟨"s", 0⟩
  refine ⟨⟨[], [s], [⟨[], .word "A" [n, nr, n, nr] 0, []⟩, ⟨[n, nr, n, nr], .word "B" [s] 0, []⟩,
    ⟨[], .cup n nr false, [n, nr, s]⟩, ⟨[], .cup n nr false, [s]⟩]⟩,
    ⟨[], [n, nr, s], [⟨[], .word "A" [n, nr] 0, []⟩, ⟨[n, nr], .word "B" [s] 0, []⟩]⟩, by decide +kernel, ?_, by decide +kernel,
    by decide +kernel, rfl, rfl⟩
  intro l hl
  simp only [List.mem_cons, List.not_mem_nil, or_false] at hl
  rcases hl with rfl | rfl | rfl | rfl <;> simp [Box.Valid] <;> decide

/-- **C59, refuted.** `B : s`, `A : n ⊗ n.r` with the cup inside `A`: the last word has nothing to be merged with
and the rewriter raises `IndexError`. -/
theorem C59_refuted_raises : ∃ d : GDiagram, d.WT ∧ d.Valid ∧ isPregroup d = true ∧
    (removeSwaps d).map (fun _ => ()) = .error .indexError := by
  let n : Ob := ⟨"n", 0⟩; let nr : Ob := ⟨"n", 1⟩; let s : Ob := ⟨"s", 0⟩
  refine ⟨⟨[], [s], [⟨[], .word "B" [s] 0, []⟩, ⟨[s], .word "A" [n, nr] 0, []⟩, ⟨[s], .cup n nr false, []⟩]⟩,
    by decide +kernel, ?_, by decide +kernel, by decide +kernel⟩
  intro l hl
  simp only [List.mem_cons, List.not_mem_nil, or_false] at hl
  rcases hl with rfl | rfl | rfl <;> simp [Box.Valid]; decide

end DRewrite
end Lambeq
