import Verif.Discocirc.FramesProps

/-!
# DisCoCirc: nouns and linear maps of sandwiches (C89)
-/

namespace Lambeq
open Diagram
set_option linter.unusedSimpArgs false
set_option linter.unusedSectionVars false

namespace Disco

/-! ## The nouns -/

/-- The box of an anonymous noun. -/
def anonymous : FBox := .base (.gen "" [] [noun] 0)

/-- What is known of a key and its box: the box of an unpruned noun leaf with this index, or the anonymous box for the noun before. -/
def KeyOk (prev : Option Nat) (leaves : List (Nat × String)) (e : Option Nat × FBox) : Prop :=
  (e.1 = prev ∧ e.2 = anonymous) ∨ ∃ l ∈ leaves, e.1 = some l.1 ∧ e.2 = nounBox l.2

theorem mem_zip_append {α β : Type} {a : List α} {b : List β} {c : List α} {d : List β} (h : a.length = b.length) (x : α × β) :
    x ∈ (a ++ c).zip (b ++ d) ↔ x ∈ a.zip b ∨ x ∈ c.zip d := by
  rw [List.zip_append h, List.mem_append]

/-- New keys with the boxes of their first mentions. -/
theorem firstBoxes_zip {α β : Type} [DecidableEq α] (es : List α) (ps : List (α × β)) (new : List α) (h : entities es (ps.map Prod.fst) = es ++ new) :
    ∀ e ∈ new.zip (firstBoxes es ps), e ∈ ps ∧ e.1 ∉ es := by
  induction ps generalizing es new with
  | nil => intro e he; simp [firstBoxes] at he
  | cons p ps ih =>
    intro e he
    rw [List.map_cons, entities] at h
    rw [firstBoxes] at he
    by_cases hp : p.1 ∈ es
    · rw [if_pos hp] at h he
      obtain ⟨h1, h2⟩ := ih es new h e he
      exact ⟨List.mem_cons_of_mem _ h1, h2⟩
    · rw [if_neg hp] at h he
      obtain ⟨n2, hn⟩ := entities_prefix (es ++ [p.1]) (ps.map Prod.fst)
      have e1 : new = p.1 :: n2 := by
        rw [hn, List.append_assoc] at h
        exact (List.append_cancel_left h).symm
      subst e1
      rw [List.zip_cons_cons] at he
      rcases List.mem_cons.1 he with rfl | he
      · exact ⟨List.mem_cons_self, hp⟩
      · obtain ⟨h1, h2⟩ := ih (es ++ [p.1]) n2 hn e he
        exact ⟨List.mem_cons_of_mem _ h1, fun hh => h2 (List.mem_append_left _ hh)⟩

/-- The nouns of a result. -/
structure Nouns (prev : Option Nat) (leaves : List (Nat × String)) (keys : List (Option Nat)) (boxes : List FBox) (cursor : Option Nat) : Prop where
  all : ∀ l ∈ leaves, some l.1 ∈ keys
  only : ∀ e ∈ keys.zip boxes, KeyOk prev leaves e
  cursor : cursor = prev ∨ cursor ∈ keys

theorem addKid_nouns (t : Ty) {s : Kids} (hs : KOk s) {r : FD × List FBox × List (Option Nat) × Option Nat} (hr : SOk r) {prev : Option Nat}
    {ls ls' : List (Nat × String)} (h1 : Nouns prev ls s.n2w s.boxes s.cursor) (h2 : Nouns s.cursor ls' r.2.2.1 r.2.1 r.2.2.2) {s' : Kids}
    (h : addKid t s r = .ok s') : Nouns prev (ls ++ ls') s'.n2w s'.boxes s'.cursor := by
  obtain ⟨s2, e1, e2, e3, e4⟩ := addKid_ok t hs hr
  rw [e1] at h
  obtain rfl : s2 = s' := by simpa using h
  have hz : (r.2.2.1.zip r.2.1).map Prod.fst = r.2.2.1 := List.map_fst_zip (by rw [hr.boxes])
  have hb : s2.boxes = s.boxes ++ firstBoxes s.n2w (r.2.2.1.zip r.2.1) := by
    obtain ⟨i1, i2, i3, i4, i5, i6, i7⟩ := collect_inv s.n2w s.boxes (r.2.2.1.zip r.2.1)
    unfold addKid at e1
    dsimp only at e1
    split at e1
    · simp at e1
    · simp only [Except.ok.injEq] at e1
      rw [← e1]; exact i4
  refine ⟨?_, ?_, ?_⟩
  · intro l hl
    rw [e3, mem_entities]
    rcases List.mem_append.1 hl with hl | hl
    · exact .inl (h1.all l hl)
    · exact .inr (h2.all l hl)
  · intro e he
    obtain ⟨new, hn⟩ := entities_prefix s.n2w r.2.2.1
    rw [e3, hn, hb, mem_zip_append hs.boxes.symm] at he
    rcases he with he | he
    · rcases h1.only e he with hh | ⟨l, hl, hh⟩
      · exact .inl hh
      · exact .inr ⟨l, List.mem_append_left _ hl, hh⟩
    · obtain ⟨m1, m2⟩ := firstBoxes_zip s.n2w (r.2.2.1.zip r.2.1) new (by rw [hz]; exact hn) e he
      rcases h2.only e m1 with ⟨hh1, hh2⟩ | ⟨l, hl, hh⟩
      · rcases h1.cursor with hc | hc
        · exact .inl ⟨hh1.trans hc, hh2⟩
        · rw [hh1] at m2; exact absurd hc m2
      · exact .inr ⟨l, List.mem_append_right _ hl, hh⟩
  · rw [e4, e3]
    by_cases ht : t = [noun]
    · rw [if_pos ht]
      rcases h2.cursor with hc | hc
      · rw [hc]
        rcases h1.cursor with hc' | hc'
        · exact .inl hc'
        · exact .inr ((mem_entities _ _ _).2 (.inl hc'))
      · exact .inr ((mem_entities _ _ _).2 (.inr hc))
    · rw [if_neg ht]
      rcases h1.cursor with hc | hc
      · exact .inl hc
      · exact .inr ((mem_entities _ _ _).2 (.inl hc))

theorem startKids_nouns (p : List Nat) (prev : Option Nat) (t : Ty) :
    Nouns prev [] (startKids p prev t).n2w (startKids p prev t).boxes (startKids p prev t).cursor := by
  unfold startKids
  split
  · refine ⟨by simp, ?_, .inl rfl⟩
    intro e he
    simp only [List.zip_cons_cons, List.zip_nil_right, List.mem_singleton] at he
    subst he
    exact .inl ⟨rfl, rfl⟩
  · exact ⟨by simp, by simp, .inl rfl⟩

mutual
theorem sandwich_nouns (p : List Nat) (lab : Bool) : ∀ (t : PTree) (prev : Option Nat) (r : FD × List FBox × List (Option Nat) × Option Nat),
    sandwich p lab prev t = .ok r → Nouns prev (nounLeaves p t) r.2.2.1 r.2.1 r.2.2.2
  | .node w i t cs, prev, r, h => by
      rw [sandwich] at h
      rw [nounLeaves]
      by_cases hl : t = [noun] ∧ cs = []
      · rw [if_pos hl] at h ⊢
        by_cases hi : i ∈ p
        · rw [if_pos hi] at h ⊢
          obtain rfl : _ = r := by simpa using h
          exact ⟨by simp, by simp, .inl rfl⟩
        · rw [if_neg hi] at h ⊢
          obtain rfl : _ = r := by simpa using h
          refine ⟨by simp, ?_, .inr (by simp)⟩
          intro e he
          simp only [List.zip_cons_cons, List.zip_nil_right, List.mem_singleton] at he
          subst he
          exact .inr ⟨(i, w), by simp, rfl, rfl⟩
      · rw [if_neg hl] at h ⊢
        obtain ⟨s, s1, s2⟩ := sandwichKids_ok p lab cs _ (startKids_ok p prev t)
        have hn := sandwichKids_nouns p lab cs (startKids p prev t) s [] prev (startKids_ok p prev t) (startKids_nouns p prev t) s1
        rw [s1] at h
        dsimp only at h
        rw [List.nil_append] at hn
        have hk : r.2.2.1 = s.n2w ∧ r.2.2.2 = s.cursor ∧ (s.n2w ≠ [] → r.2.1 = s.boxes) := by
          unfold closeNode at h
          dsimp only at h
          by_cases h0 : s.n2w = []
          · rw [if_pos h0] at h
            obtain rfl : _ = r := by simpa using h
            exact ⟨h0.symm, rfl, fun hh => absurd h0 hh⟩
          · rw [if_neg h0] at h
            split at h
            · simp at h
            · obtain rfl : _ = r := by simpa using h
              exact ⟨rfl, rfl, fun _ => rfl⟩
        obtain ⟨k1, k2, k3⟩ := hk
        refine ⟨?_, ?_, ?_⟩
        · rw [k1]; exact hn.all
        · rw [k1]
          intro e he
          by_cases h0 : s.n2w = []
          · rw [h0] at he; simp at he
          · rw [k3 h0] at he; exact hn.only e he
        · rw [k1, k2]; exact hn.cursor
theorem sandwichKids_nouns (p : List Nat) (lab : Bool) : ∀ (cs : List PTree) (s s' : Kids) (ls : List (Nat × String)) (prev : Option Nat), KOk s →
    Nouns prev ls s.n2w s.boxes s.cursor → sandwichKids p lab s cs = .ok s' → Nouns prev (ls ++ nounLeavess p cs) s'.n2w s'.boxes s'.cursor
  | [], s, s', ls, prev, hk, hn, h => by
      rw [sandwichKids] at h
      obtain rfl : s = s' := by simpa using h
      rw [nounLeavess, List.append_nil]; exact hn
  | c :: cs, s, s', ls, prev, hk, hn, h => by
      obtain ⟨r, r1, r2⟩ := sandwich_ok p lab c s.cursor
      obtain ⟨s1, e1, e2, _⟩ := addKid_ok c.typ hk r2
      have hc := sandwich_nouns p lab c s.cursor r r1
      rw [sandwichKids, r1] at h
      dsimp only at h
      rw [e1] at h
      have := sandwichKids_nouns p lab cs s1 s' (ls ++ nounLeaves p c) prev e2 (addKid_nouns c.typ hk r2 hn hc e1) h
      rw [nounLeavess, ← List.append_assoc]; exact this
end

/-! ## The linear maps -/

variable {R : Type} [CommSemiring R] {I : Interp Ob FBox R}

/-- A map on the wires `W`, the other wires (up to `k`) untouched. -/
def onlyOn (k : Nat) (W : List Nat) (M : List Nat → List Nat → R) (z y : List Nat) : R :=
  if ∀ w < k, w ∉ W → y.getD w 0 = z.getD w 0 then M (pick z W) (pick y W) else 0

theorem pick_range (x : List Nat) (k : Nat) (h : x.length = k) : (List.range k).map (fun w => x.getD w 0) = x := by
  subst h
  refine List.ext_getElem? (fun j => ?_)
  rcases Nat.lt_or_ge j x.length with h | h
  · rw [List.getElem?_map, List.getElem?_range h, List.getElem?_eq_getElem h]
    simp [List.getD_eq_getElem?_getD, List.getElem?_eq_getElem h]
  · rw [List.getElem?_eq_none (by simpa using h), List.getElem?_eq_none h]

/-- A child placed on its wires. -/
theorem onWires_mat (hS : I.Swaps) {c : FD} {anc W : List Nat} {k : Nat} (hc : c.WT) (hd : c.dom = nouns W.length) (hcod : c.cod = nouns W.length)
    (hp : (anc ++ W).Perm (List.range k)) {d : FD} (h : onWires c (anc ++ W) anc.length = .ok d) :
    ∀ z ∈ I.idx (nouns k), ∀ y ∈ I.idx (nouns k), I.mat d z y = onlyOn k W (I.mat c) z y := by
  intro z hz y hy
  obtain ⟨q, q1, q2, q3, q4, q5, q6⟩ := perm_nouns (anc ++ W)
  obtain ⟨q', d', e1, e2, e3, e4, e5, e6⟩ := onWires_ok c anc W hc hd hcod
  rw [q1] at e1
  obtain rfl : q = q' := by simpa using e1
  rw [h] at e2
  obtain rfl : d = d' := by simpa using e2
  have hlen : (anc ++ W).length = k := by rw [hp.length_eq, List.length_range]
  have hsort : (anc ++ W).insertionSort (· ≤ ·) = List.range k := by
    refine List.Perm.eq_of_pairwise (le := (· ≤ ·)) (fun a b _ _ h1 h2 => by omega) (List.pairwise_insertionSort _ _) ?_ ?_
    · exact List.pairwise_lt_range.imp (fun h => le_of_lt h)
    · exact (List.perm_insertionSort _ _).trans hp
  have hroute : ∀ x ∈ I.idx (nouns k), routeWires q.layers x = pick x (anc ++ W) := by
    intro x hx
    have := q6 (fun w => x.getD w 0)
    rw [hsort, pick_range x k (mem_nouns.1 hx).1] at this
    exact this
  rw [hlen] at q3 q4
  have hw : ∀ w ∈ anc ++ W, w < k := fun w h => List.mem_range.1 (hp.mem_iff.1 h)
  have hpm : ∀ x ∈ I.idx (nouns k), pick x (anc ++ W) ∈ I.idx (nouns k) := fun x hx => by
    have := pick_mem hx hw; rw [hlen] at this; exact this
  have hwa : ∀ z ∈ I.idx (nouns k), pick z anc ∈ I.idx (nouns anc.length) := fun z hz => pick_mem hz (fun w h => hw w (List.mem_append_left _ h))
  have hwW : ∀ z ∈ I.idx (nouns k), pick z W ∈ I.idx (nouns W.length) := fun z hz => pick_mem hz (fun w h => hw w (List.mem_append_right _ h))
  have mq : ∀ x ∈ I.idx (nouns k), ∀ u ∈ I.idx (nouns k), I.mat q x u = if u = pick x (anc ++ W) then 1 else 0 := by
    intro x hx u hu
    rw [I.mat_swaps hS q2 q5 (by rw [q3]; exact hx) (by rw [q4]; exact hu), hroute x hx]
  have hdag := daggerWith_dom_cod FBox.dagger _ q2
  have hbox : ∀ l ∈ q.layers, ∃ x y : Ob, l.box = .base (.swap x y) := fun l hl => q5 l hl
  have mdq : ∀ x ∈ I.idx (nouns k), ∀ u ∈ I.idx (nouns k), I.mat (fdagger q) u x = if u = pick x (anc ++ W) then 1 else 0 := by
    intro x hx u hu
    let _ : StarRing R := starRingOfComm
    have := I.run_dagger_on FBox.dagger (ls := q.layers) (fun l _ => fdagger_sig l.box) q2
      (fun l hl i hi o ho => by
        obtain ⟨a, b, e⟩ := hbox l hl
        have hi' : i ∈ I.idx [a, b] := by rw [e] at hi; exact hi
        have ho' : o ∈ I.idx [b, a] := by rw [e] at ho; exact ho
        rw [e]
        exact swap_ten hS a b i hi' o ho') (x := x) (y := u) (by rw [q3]; exact hx) (by rw [q4]; exact hu)
    rw [Interp.mat, fdagger, hdag.2.2, this]
    exact mq x hx u hu
  have hB : (tensor (Diagram.id (nouns anc.length)) c).WT := WT.tensor (WT.id _) hc
  have hBd : (tensor (Diagram.id (nouns anc.length)) c).dom = nouns k := by
    rw [tensor_dom, hd, ← hlen, List.length_append, ← nouns_add]; rfl
  have hBc : (tensor (Diagram.id (nouns anc.length)) c).cod = nouns k := by
    rw [tensor_cod, hcod, ← hlen, List.length_append, ← nouns_add]; rfl
  have c1 : q.cod = (tensor (Diagram.id (nouns anc.length)) c).dom := by rw [hBd, q4]
  have c2 : (comp q (tensor (Diagram.id (nouns anc.length)) c)).cod = (fdagger q).dom := by
    show (tensor (Diagram.id (nouns anc.length)) c).cod = _
    rw [hBc]; exact (hdag.1.trans q4).symm
  have dq : (fdagger q).dom = nouns k := hdag.1.trans q4
  have wdag : (fdagger q).WT := WT.daggerWith FBox.dagger fdagger_sig q2
  rw [e3, I.mat_comp' wdag c2 z (by show y ∈ I.idx (fdagger q).cod; rw [show (fdagger q).cod = _ from hdag.2.1, q3]; exact hy),
    c2, dq, Finset.sum_eq_single (pick y (anc ++ W))]
  · rw [mdq y hy _ (hpm y hy), if_pos rfl, mul_one,
      I.mat_comp' hB c1 z (by rw [hBc]; exact hpm y hy), q4, Finset.sum_eq_single (pick z (anc ++ W))]
    · rw [mq z hz _ (hpm z hz), if_pos rfl, one_mul, pick_append, pick_append,
        I.mat_tensor (WT.id (nouns anc.length)) hc (hwa z hz) (by rw [hd]; exact hwW z hz) (hwa y hy) (by rw [hcod]; exact hwW y hy), I.mat_id, ite_mul, one_mul, zero_mul]
      unfold onlyOn
      refine if_congr ?_ rfl rfl
      rw [pick, pick, List.map_inj_left]
      have hmem : ∀ w, w ∈ anc ↔ w < k ∧ w ∉ W := by
        have hnd : (anc ++ W).Nodup := hp.nodup_iff.2 List.nodup_range
        intro w
        constructor
        · intro h
          exact ⟨hw w (List.mem_append_left _ h), fun h' => (List.nodup_append.1 hnd).2.2 w h w h' rfl⟩
        · rintro ⟨h1, h2⟩
          rcases List.mem_append.1 (hp.mem_iff.2 (List.mem_range.2 h1)) with h | h
          · exact h
          · exact absurd h h2
      constructor
      · intro hh w h1 h2; exact hh w ((hmem w).2 ⟨h1, h2⟩)
      · intro hh w h1; exact hh w ((hmem w).1 h1).1 ((hmem w).1 h1).2
    · intro u hu hne
      rw [mq z hz u hu, if_neg hne, zero_mul]
    · intro hh; exact absurd (hpm z hz) hh
  · intro u hu hne
    rw [mdq y hy u hu, if_neg hne, mul_zero]
  · intro hh; exact absurd (hpm y hy) hh

/-- More wires to the right. -/
theorem onlyOn_extend {sd : FD} {j k : Nat} {W : List Nat} {M : List Nat → List Nat → R} (hj : j ≤ k) (hW : ∀ w ∈ W, w < j) (hsd : sd.WT)
    (hd : sd.dom = nouns j) (hc : sd.cod = nouns j) (hm : ∀ z ∈ I.idx (nouns j), ∀ y ∈ I.idx (nouns j), I.mat sd z y = onlyOn j W M z y) :
    ∀ z ∈ I.idx (nouns k), ∀ y ∈ I.idx (nouns k), I.mat (tensor sd (Diagram.id (nouns (k - j)))) z y = onlyOn k W M z y := by
  intro z hz y hy
  have hk : j + (k - j) = k := by omega
  have hzl := (mem_nouns.1 hz).1
  have hyl := (mem_nouns.1 hy).1
  rw [← hk] at hz hy
  obtain ⟨z1, z2, z3⟩ := split_nouns hz
  obtain ⟨y1, y2, y3⟩ := split_nouns hy
  have e : I.mat (tensor sd (Diagram.id (nouns (k - j)))) z y = I.mat sd (z.take j) (y.take j) * (if y.drop j = z.drop j then 1 else 0) := by
    conv_lhs => rw [z3, y3]
    rw [I.mat_tensor hsd (WT.id (nouns (k - j))) (by rw [hd]; exact z1) z2 (by rw [hc]; exact y1) y2, I.mat_id]
  rw [e, hm _ z1 _ y1]
  have ht : ∀ (x : List Nat) (w : Nat), w < j → (x.take j).getD w 0 = x.getD w 0 := by
    intro x w hw
    rw [List.getD_eq_getElem?_getD, List.getD_eq_getElem?_getD, List.getElem?_take_of_lt hw]
  have hpick : ∀ x : List Nat, pick (x.take j) W = pick x W := by
    intro x
    exact List.map_congr_left (fun w hw => ht x w (hW w hw))
  unfold onlyOn
  rw [hpick, hpick, ite_mul, zero_mul, mul_ite, mul_one, mul_zero, ← ite_and]
  refine if_congr ?_ rfl rfl
  constructor
  · rintro ⟨h1, h2⟩ w hw hn
    rcases Nat.lt_or_ge w j with hlt | hge
    · rw [← ht y w hlt, ← ht z w hlt]; exact h1 w hlt hn
    · have := congrArg (fun l => l.getD (w - j) 0) h2
      simp only [List.getD_eq_getElem?_getD, List.getElem?_drop] at this ⊢
      rwa [show j + (w - j) = w by omega] at this
  · intro h
    refine ⟨fun w hw hn => by rw [ht y w hw, ht z w hw]; exact h w (by omega) hn, ?_⟩
    refine List.ext_getElem? (fun i => ?_)
    rw [List.getElem?_drop, List.getElem?_drop]
    rcases Nat.lt_or_ge (j + i) k with hlt | hge
    · have := h (j + i) hlt (fun hh => by have := hW _ hh; omega)
      rw [List.getD_eq_getElem?_getD, List.getD_eq_getElem?_getD, List.getElem?_eq_getElem (by omega), List.getElem?_eq_getElem (by omega)] at this
      rw [List.getElem?_eq_getElem (by omega), List.getElem?_eq_getElem (by omega)]
      simpa using this
    · rw [List.getElem?_eq_none (by omega), List.getElem?_eq_none (by omega)]

/-! ## A node with its children -/

/-- The wire of a key. -/
def wireOf {α : Type} [DecidableEq α] (keys : List α) (a : α) : Nat := keys.idxOf a

theorem wireOf_grow {α : Type} [DecidableEq α] {l : List α} {a : α} (m : List α) (h : a ∈ l) : wireOf (l ++ m) a = wireOf l a := idxOf_append_of_mem m h

theorem wireOf_lt {α : Type} [DecidableEq α] {l : List α} {a : α} (h : a ∈ l) : wireOf l a < l.length := List.idxOf_lt_length_of_mem h

/-- The map of a node: its box, and then for every child shown the map of the child on the wires of its nouns and again a box of the node. -/
def sliceMap (I : Interp Ob FBox R) (w : String) (lab : Bool) (k : Nat) : Nat → (List Nat → List Nat → R) → List (List Nat × FD) → List Nat → List Nat → R
  | _, V, [] => V
  | i, V, (W, c) :: rest =>
    let suffix := if lab then (if rest = [] then "$_{bottom}$" else "$_{" ++ toString (i + 1) ++ "}$") else ""
    sliceMap I w lab k (i + 1) (fun x y => ∑ u ∈ I.idx (nouns k), (∑ z ∈ I.idx (nouns k), V x z * onlyOn k W (I.mat c) z u) *
      I.ten (.base (.gen (w ++ suffix) (nouns k) (nouns k) 0)) u y) rest

theorem sliceMap_congr (w : String) (lab : Bool) (k : Nat) (l : List (List Nat × FD)) : ∀ (i : Nat) {V V' : List Nat → List Nat → R} (x y : List Nat)
    (_ : y ∈ I.idx (nouns k)), (∀ z ∈ I.idx (nouns k), V x z = V' x z) → sliceMap I w lab k i V l x y = sliceMap I w lab k i V' l x y := by
  induction l with
  | nil => intro i V V' x y hy h; exact h y hy
  | cons a l ih =>
    intro i V V' x y hy h
    rw [sliceMap, sliceMap]
    refine ih (i + 1) x y hy (fun z _ => ?_)
    refine Finset.sum_congr rfl (fun u _ => ?_)
    congr 1
    refine Finset.sum_congr rfl (fun v hv => ?_)
    rw [h v hv]

/-- A subdiagram is a child on the wires of its keys. -/
def Placed (I : Interp Ob FBox R) (n2w : List (Option Nat)) (d : FD) (kid : List (Option Nat) × FD) : Prop :=
  d.WT ∧ ∃ j ≤ n2w.length, d.dom = nouns j ∧ d.cod = nouns j ∧ (∀ a ∈ kid.1, a ∈ n2w ∧ wireOf n2w a < j) ∧
    ∀ z ∈ I.idx (nouns j), ∀ y ∈ I.idx (nouns j), I.mat d z y = onlyOn j (kid.1.map (fun a => wireOf n2w a)) (I.mat kid.2) z y

theorem Placed.grow {n2w new : List (Option Nat)} {d : FD} {kid : List (Option Nat) × FD} (h : Placed I n2w d kid) : Placed I (n2w ++ new) d kid := by
  obtain ⟨h1, j, h2, h3, h4, h5, h6⟩ := h
  have e : kid.1.map (fun a => wireOf (n2w ++ new) a) = kid.1.map (fun a => wireOf n2w a) :=
    List.map_congr_left (fun a ha => wireOf_grow _ (h5 a ha).1)
  refine ⟨h1, j, by simp; omega, h3, h4, ?_, ?_⟩
  · intro a ha
    exact ⟨List.mem_append_left _ (h5 a ha).1, by rw [wireOf_grow _ (h5 a ha).1]; exact (h5 a ha).2⟩
  · rw [e]; exact h6

theorem addKid_placed (hS : I.Swaps) (t : Ty) {s s' : Kids} (hs : KOk s) {r : FD × List FBox × List (Option Nat) × Option Nat} (hr : SOk r)
    (h : addKid t s r = .ok s') : ∃ d new, s'.subs = s.subs ++ [d] ∧ s'.n2w = s.n2w ++ new ∧ Placed I s'.n2w d (r.2.2.1, r.1) := by
  have hz : (r.2.2.1.zip r.2.1).map Prod.fst = r.2.2.1 := List.map_fst_zip (by rw [hr.boxes])
  have hzl : (r.2.2.1.zip r.2.1).length = r.2.2.1.length := by rw [List.length_zip, hr.boxes, Nat.min_self]
  obtain ⟨k1, k2, k3, k4, k5, k6, k7⟩ := kid_wires s.n2w s.boxes (r.2.2.1.zip r.2.1) (by rw [hz]; exact hr.keys)
  unfold addKid at h
  dsimp only at h
  generalize hc : collect s.n2w s.boxes (r.2.2.1.zip r.2.1) = c at *
  have hids : c.ids = r.2.2.1.map (fun a => wireOf c.n2w a) := by
    rw [k3]
    conv_rhs => rw [← hz, List.map_map]
    rfl
  have hl : c.ids.length = r.2.2.1.length := by rw [hids, List.length_map]
  obtain ⟨q, d, q1, d1, d2, d3, d4, d5⟩ := onWires_ok r.1 c.anc c.ids hr.wt (by rw [hl]; exact hr.dom) (by rw [hl]; exact hr.cod)
  have hperm : (c.anc ++ c.ids).Perm (List.range c.n2w.length) := by
    have hnd : (c.anc ++ c.ids).Nodup := by
      rw [List.nodup_append]
      refine ⟨?_, k4, fun a ha b hb hab => by subst hab; exact ((k5 a).1 ha).2 hb⟩
      have := (collect_inv s.n2w s.boxes (r.2.2.1.zip r.2.1)).anc
      rw [hc] at this
      rw [this]; exact List.nodup_range.filter _
    refine (hnd.subperm (fun a ha => List.mem_range.2 (k7 a (by rw [k1]; exact ha)))).perm_of_length_le ?_
    rw [List.length_range, ← k1, k6]
  have hlen : (c.anc ++ c.ids).length = c.n2w.length := by rw [← k1, k6]
  rw [k1, d1] at h
  obtain rfl : _ = s' := by simpa using h
  rw [hz] at k2
  obtain ⟨new, hn⟩ := entities_prefix s.n2w r.2.2.1
  refine ⟨d, new, rfl, k2.trans hn, d3, c.n2w.length, le_refl _, ?_, ?_, ?_, ?_⟩
  · rw [← hlen]; exact d4
  · rw [← hlen]; exact d5
  · intro a ha
    have : a ∈ c.n2w := by rw [k2, mem_entities]; exact .inr ha
    exact ⟨this, wireOf_lt this⟩
  · have := onWires_mat (I := I) hS hr.wt (by rw [hl]; exact hr.dom) (by rw [hl]; exact hr.cod) hperm d1
    rw [hids] at this; exact this

/-- The children of a node, in order, with their keys and diagrams. -/
theorem sandwichKids_placed (hS : I.Swaps) (p : List Nat) (lab : Bool) : ∀ (cs : List PTree) (s s' : Kids) (kids : List (List (Option Nat) × FD)), KOk s →
    List.Forall₂ (Placed I s.n2w) s.subs kids → sandwichKids p lab s cs = .ok s' →
    ∃ more : List (List (Option Nat) × FD), List.Forall₂ (fun t kid => ∃ prev boxes cursor, sandwich p lab prev t = .ok (kid.2, boxes, kid.1, cursor)) cs more ∧
      List.Forall₂ (Placed I s'.n2w) s'.subs (kids ++ more)
  | [], s, s', kids, hk, hp, h => by
      rw [sandwichKids] at h
      obtain rfl : s = s' := by simpa using h
      exact ⟨[], .nil, by rw [List.append_nil]; exact hp⟩
  | c :: cs, s, s', kids, hk, hp, h => by
      obtain ⟨r, r1, r2⟩ := sandwich_ok p lab c s.cursor
      obtain ⟨s1, e1, e2, _⟩ := addKid_ok c.typ hk r2
      obtain ⟨d, new, a1, a2, a3⟩ := addKid_placed (I := I) hS c.typ hk r2 e1
      rw [sandwichKids, r1] at h
      dsimp only at h
      rw [e1] at h
      have hp1 : List.Forall₂ (Placed I s1.n2w) s1.subs (kids ++ [(r.2.2.1, r.1)]) := by
        rw [a1]
        refine List.rel_append ?_ (.cons a3 .nil)
        rw [a2]
        exact hp.imp (fun _ _ hh => hh.grow)
      obtain ⟨more, m1, m2⟩ := sandwichKids_placed hS p lab cs s1 s' _ e2 hp1 h
      exact ⟨(r.2.2.1, r.1) :: more, .cons ⟨_, _, _, r1⟩ m1, by rw [List.append_assoc] at m2; exact m2⟩

theorem slices_mat (w : String) (lab : Bool) (n2w : List (Option Nat)) : ∀ (subs : List FD) (shown : List (List (Option Nat) × FD)) (i : Nat) (big d : FD)
    (V : List Nat → List Nat → R), List.Forall₂ (Placed I n2w) subs shown → big.WT → big.dom = nouns n2w.length → big.cod = nouns n2w.length →
    (∀ x, ∀ y ∈ I.idx (nouns n2w.length), I.mat big x y = V x y) → slices w lab n2w.length i big subs = .ok d →
    ∀ x, ∀ y ∈ I.idx (nouns n2w.length), I.mat d x y = sliceMap I w lab n2w.length i V (shown.map (fun kid => (kid.1.map (fun a => wireOf n2w a), kid.2))) x y
  | [], _, i, big, d, V, .nil, h1, h2, h3, hV, h => by
      rw [slices] at h
      obtain rfl : big = d := by simpa using h
      exact hV
  | sd :: subs, kid :: shown, i, big, d, V, .cons hp hps, h1, h2, h3, hV, h => by
      obtain ⟨p1, j, p2, p3, p4, p5, p6⟩ := hp
      have e : n2w.length - sd.cod.length = n2w.length - j := by rw [p4, nouns_length]
      rw [slices, e] at h
      have td : (tensor sd (Diagram.id (nouns (n2w.length - j)))).dom = nouns n2w.length := by
        rw [tensor_dom, p3]
        show nouns j ++ nouns (n2w.length - j) = _
        rw [nouns_add]; congr 1; omega
      have tc : (tensor sd (Diagram.id (nouns (n2w.length - j)))).cod = nouns n2w.length := by
        rw [tensor_cod, p4]
        show nouns j ++ nouns (n2w.length - j) = _
        rw [nouns_add]; congr 1; omega
      have tw : (tensor sd (Diagram.id (nouns (n2w.length - j)))).WT := WT.tensor p1 (WT.id _)
      have tm := onlyOn_extend (I := I) p2 (W := kid.1.map (fun a => wireOf n2w a)) (fun x hx => by
        obtain ⟨a, ha, rfl⟩ := List.mem_map.1 hx
        exact (p5 a ha).2) p1 p3 p4 p6
      generalize tensor sd (Diagram.id (nouns (n2w.length - j))) = t at *
      have c1 : big.cod = t.dom := by rw [h3, td]
      rw [andThen_eq_ok c1] at h
      dsimp only at h
      have hemp : (shown.map (fun kid => (kid.1.map (fun a => wireOf n2w a), kid.2)) = []) ↔ subs = [] := by
        rw [List.map_eq_nil_iff, ← List.length_eq_zero_iff, ← hps.length_eq, List.length_eq_zero_iff]
      rw [List.map_cons, sliceMap]
      have hsuf : (if lab then (if shown.map (fun kid => (kid.1.map (fun a => wireOf n2w a), kid.2)) = [] then "$_{bottom}$" else "$_{" ++ toString (i + 1) ++ "}$") else "") =
          (if lab then (if subs = [] then "$_{bottom}$" else "$_{" ++ toString (i + 1) ++ "}$") else "") := by
        congr 1
        exact if_congr hemp rfl rfl
      rw [hsuf]
      generalize (if lab then (if subs = [] then "$_{bottom}$" else "$_{" ++ toString (i + 1) ++ "}$") else "") = suf at *
      have hd1 : (⟨big.dom, t.cod, big.layers ++ t.layers⟩ : FD) = comp big t := rfl
      have w1 : (comp big t).WT := comp_wt h1 tw c1
      rw [hd1, tc] at h
      have c2 : (comp big t).cod = (ofBox (.base (.gen (w ++ suf) (nouns n2w.length) (nouns n2w.length) 0)) : FD).dom := tc
      rw [andThen_eq_ok c2] at h
      dsimp only at h
      have w2 : (comp (comp big t) (ofBox (.base (.gen (w ++ suf) (nouns n2w.length) (nouns n2w.length) 0)))).WT := comp_wt w1 (WT.ofBox _) c2
      refine slices_mat w lab n2w subs shown (i + 1) (comp (comp big t) (ofBox (.base (.gen (w ++ suf) (nouns n2w.length) (nouns n2w.length) 0)))) d _ hps w2 h2 rfl ?_ h
      intro x y hy
      have wb : (ofBox (.base (.gen (w ++ suf) (nouns n2w.length) (nouns n2w.length) 0)) : FD).WT := WT.ofBox _
      have cb : (comp big t).cod = nouns n2w.length := tc
      rw [I.mat_comp' wb c2 x hy, cb]
      refine Finset.sum_congr rfl (fun u hu => ?_)
      rw [I.mat_ofBox (.base (.gen (w ++ suf) (nouns n2w.length) (nouns n2w.length) 0)) (x := u) (y := y) hu hy,
        I.mat_comp' tw c1 x (by rw [tc]; exact hu), h3]
      congr 1
      refine Finset.sum_congr rfl (fun z hz => ?_)
      rw [hV x z hz, tm z hz u hu]

theorem forall₂_filter {α β : Type} {P : α → β → Prop} (f : α → Bool) : ∀ {as : List α} {bs : List β}, List.Forall₂ P as bs →
    ∃ cs : List β, cs.Sublist bs ∧ List.Forall₂ P (as.filter f) cs ∧ ∀ b ∈ bs, b ∈ cs ∨ ∃ a, f a = false ∧ P a b
  | _, _, .nil => ⟨[], List.Sublist.refl _, .nil, by simp⟩
  | a :: as, b :: bs, .cons h hs => by
      obtain ⟨cs, c1, c2, c3⟩ := forall₂_filter f hs
      by_cases hf : f a = true
      · refine ⟨b :: cs, c1.cons_cons _, by rw [List.filter_cons_of_pos hf]; exact .cons h c2, ?_⟩
        intro x hx
        rcases List.mem_cons.1 hx with rfl | hx
        · exact .inl List.mem_cons_self
        · rcases c3 x hx with h | h
          · exact .inl (List.mem_cons_of_mem _ h)
          · exact .inr h
      · refine ⟨cs, c1.cons _, by rw [List.filter_cons_of_neg hf]; exact c2, ?_⟩
        intro x hx
        rcases List.mem_cons.1 hx with rfl | hx
        · exact .inr ⟨a, by simpa using hf, h⟩
        · exact c3 x hx

/-- The map of the sandwich of a node. -/
theorem sandwich_map (hS : I.Swaps) (p : List Nat) (lab : Bool) (prev : Option Nat) (w : String) (i : Nat) (t : Ty) (cs : List PTree)
    (hn : ¬ (t = [noun] ∧ cs = [])) {d : FD} {boxes : List FBox} {keys : List (Option Nat)} {cursor : Option Nat}
    (h : sandwich p lab prev (.node w i t cs) = .ok (d, boxes, keys, cursor)) (hk : keys ≠ []) :
    ∃ kids shown : List (List (Option Nat) × FD),
      List.Forall₂ (fun t kid => ∃ prev boxes cursor, sandwich p lab prev t = .ok (kid.2, boxes, kid.1, cursor)) cs kids ∧
      shown.Sublist kids ∧
      (∀ kid ∈ kids, (∀ a ∈ kid.1, a ∈ keys) ∧ (kid ∈ shown ∨ ∀ z ∈ I.idx (nouns keys.length), ∀ y ∈ I.idx (nouns keys.length),
        onlyOn keys.length (kid.1.map (fun a => wireOf keys a)) (I.mat kid.2) z y = if y = z then 1 else 0)) ∧
      ∀ x ∈ I.idx (nouns keys.length), ∀ y ∈ I.idx (nouns keys.length), I.mat d x y = sliceMap I w lab keys.length 0
        (fun x y => I.ten (.base (.gen (w ++ (if lab && !shown.isEmpty then "$_{top}$" else "")) (nouns keys.length) (nouns keys.length) 0)) x y)
        (shown.map (fun kid => (kid.1.map (fun a => wireOf keys a), kid.2))) x y := by
  obtain ⟨s, s1, s2⟩ := sandwichKids_ok p lab cs _ (startKids_ok p prev t)
  have hst : (startKids p prev t).subs = [] := by unfold startKids; split <;> rfl
  obtain ⟨kids, k1, k2⟩ := sandwichKids_placed (I := I) hS p lab cs (startKids p prev t) s [] (startKids_ok p prev t) (by rw [hst]; exact .nil) s1
  rw [List.nil_append] at k2
  rw [sandwich, if_neg hn, s1] at h
  dsimp only at h
  unfold closeNode at h
  dsimp only at h
  obtain ⟨shown, f1, f2, f3⟩ := forall₂_filter (fun d : FD => !d.layers.isEmpty) k2
  by_cases h0 : s.n2w = []
  · rw [if_pos h0] at h
    simp only [Except.ok.injEq, Prod.mk.injEq] at h
    exact absurd h.2.2.1.symm hk
  · rw [if_neg h0] at h
    cases hs : slices w lab s.n2w.length 0 (ofBox (.base (.gen (w ++ (if lab && !(s.subs.filter (fun d => !d.layers.isEmpty)).isEmpty then "$_{top}$" else ""))
        (nouns s.n2w.length) (nouns s.n2w.length) 0))) (s.subs.filter (fun d => !d.layers.isEmpty)) with
    | error e => rw [hs] at h; simp at h
    | ok d' =>
      rw [hs] at h
      simp only [Except.ok.injEq, Prod.mk.injEq] at h
      obtain ⟨rfl, rfl, rfl, rfl⟩ := h
      have hemp : (s.subs.filter (fun d => !d.layers.isEmpty)).isEmpty = shown.isEmpty := by
        have := f2.length_eq
        rw [Bool.eq_iff_iff, List.isEmpty_iff, List.isEmpty_iff, ← List.length_eq_zero_iff, this, List.length_eq_zero_iff]
      rw [hemp] at hs
      refine ⟨kids, shown, k1, f1, ?_, ?_⟩
      · intro kid hkid
        obtain ⟨a, ha, hpl⟩ : ∃ a, a ∈ s.subs ∧ Placed I s.n2w a kid := by
          obtain ⟨n, hn', e⟩ := List.getElem_of_mem hkid
          have hl := k2.length_eq
          have := List.forall₂_iff_get.1 k2
          refine ⟨s.subs[n]'(by omega), List.getElem_mem _, ?_⟩
          have h2 := this.2 n (by omega) hn'
          simp only [List.get_eq_getElem] at h2
          rw [e] at h2; exact h2
        refine ⟨fun b hb => ?_, ?_⟩
        · obtain ⟨_, j, _, _, _, h5, _⟩ := hpl
          exact (h5 b hb).1
        · rcases f3 kid hkid with hh | ⟨a', ha', hp'⟩
          · exact .inl hh
          · refine .inr ?_
            intro z hz y hy
            obtain ⟨q1, j, q2, q3, q4, q5, q6⟩ := hp'
            have := onlyOn_extend (I := I) q2 (W := kid.1.map (fun a => wireOf s.n2w a)) (fun x hx => by
              obtain ⟨b, hb, rfl⟩ := List.mem_map.1 hx
              exact (q5 b hb).2) q1 q3 q4 q6 z hz y hy
            rw [← this]
            have hlay : a'.layers = [] := by simpa using ha'
            have : I.mat (tensor a' (Diagram.id (nouns (s.n2w.length - j)))) z y = if y = z then 1 else 0 := by
              unfold Interp.mat
              rw [tensor_eq, hlay]; rfl
            exact this
      · intro x hx y hy
        refine slices_mat w lab s.n2w _ shown 0 (ofBox (.base (.gen (w ++ (if lab && !shown.isEmpty then "$_{top}$" else "")) (nouns s.n2w.length) (nouns s.n2w.length) 0)))
          d' (I.mat (ofBox (.base (.gen (w ++ (if lab && !shown.isEmpty then "$_{top}$" else "")) (nouns s.n2w.length) (nouns s.n2w.length) 0)))) f2 (WT.ofBox _) rfl rfl
          (fun _ _ _ => rfl) hs x y hy |>.trans ?_
        exact sliceMap_congr w lab s.n2w.length _ 0 x y hy (fun z hz => I.mat_ofBox _ hx hz)

end Disco
end Lambeq
