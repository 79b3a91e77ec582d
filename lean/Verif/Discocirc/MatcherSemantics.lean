import Verif.Discocirc.Combin
import Verif.Grammar.SemanticsCalc

/-!
# DisCoCirc circuits: the linear map of the matcher (C88)
-/

namespace Lambeq
open Diagram
set_option linter.unusedSimpArgs false
set_option linter.unusedSectionVars false

namespace Disco
variable {R : Type} [CommSemiring R] (I : Interp Ob FBox R)

/-- Spiders on the noun type copy and compare. -/
def Spiders : Prop := ∀ (a b : Nat) (x y : List Nat), x ∈ I.idx (nouns a) → y ∈ I.idx (nouns b) →
  I.ten (.base (.spider noun a b)) x y = if ∀ c ∈ x ++ y, ∀ c' ∈ x ++ y, c = c' then 1 else 0

variable {I}

theorem nouns_length (k : Nat) : (nouns k).length = k := by simp [nouns]

theorem nouns_add (a b : Nat) : nouns a ++ nouns b = nouns (a + b) := List.replicate_append_replicate

theorem mem_nouns {k : Nat} {z : List Nat} : z ∈ I.idx (nouns k) ↔ z.length = k ∧ ∀ c ∈ z, c < I.dim noun := by
  rw [I.mem_idx]
  induction k generalizing z with
  | zero => cases z <;> simp [nouns]
  | succ k ih =>
    have e : nouns (k + 1) = noun :: nouns k := rfl
    rw [e]
    cases z with
    | nil => simp
    | cons a z =>
      rw [List.forall₂_cons, ih]
      simp only [List.length_cons, List.mem_cons, forall_eq_or_imp, Nat.add_right_cancel_iff]
      tauto

theorem pick_mem {k : Nat} {x ws : List Nat} (hx : x ∈ I.idx (nouns k)) (hw : ∀ w ∈ ws, w < k) : pick x ws ∈ I.idx (nouns ws.length) := by
  obtain ⟨h1, h2⟩ := mem_nouns.1 hx
  refine mem_nouns.2 ⟨by simp [pick], ?_⟩
  intro c hc
  obtain ⟨w, hm, rfl⟩ := List.mem_map.1 hc
  have := hw w hm
  rw [List.getD_eq_getElem?_getD, List.getElem?_eq_getElem (by omega)]
  exact h2 _ (List.getElem_mem _)

/-- One entry of the spidering. -/
def leg (c : Nat) : FD := if c = 1 then Diagram.id [noun] else ofBox (.base (.spider noun 1 c))

theorem leg_wt (c : Nat) : (leg c).WT ∧ (leg c).dom = nouns 1 ∧ (leg c).cod = nouns c := by
  unfold leg
  by_cases h : c = 1
  · rw [if_pos h, h]; exact ⟨WT.id _, rfl, rfl⟩
  · rw [if_neg h]; exact ⟨WT.ofBox _, rfl, rfl⟩

theorem mat_leg (hI : Spiders I) (c a : Nat) (k : List Nat) (ha : [a] ∈ I.idx (nouns 1)) (hk : k ∈ I.idx (nouns c)) :
    I.mat (leg c) [a] k = if k = List.replicate c a then 1 else 0 := by
  unfold leg
  by_cases h : c = 1
  · rw [if_pos h, h, I.mat_id]; rfl
  · rw [if_neg h, I.mat_ofBox _ (x := [a]) (y := k) ha hk, hI 1 c [a] k ha hk]
    refine if_congr ?_ rfl rfl
    have hl := (mem_nouns.1 hk).1
    rw [List.eq_replicate_iff]
    constructor
    · intro hh
      refine ⟨hl, fun b hb => hh b (by simp [hb]) a (by simp)⟩
    · rintro ⟨_, hh⟩ b hb b' hb'
      have key : ∀ d ∈ [a] ++ k, d = a := by
        intro d hd
        rcases List.mem_append.1 hd with hd | hd
        · simpa using hd
        · exact hh d hd
      rw [key b hb, key b' hb']

theorem row_legs (hI : Spiders I) : ∀ cs : List Nat, ((cs.map leg).foldr tensor (Diagram.id [])).WT ∧
    ((cs.map leg).foldr tensor (Diagram.id [])).dom = nouns cs.length ∧ ((cs.map leg).foldr tensor (Diagram.id [])).cod = nouns cs.sum ∧
    ∀ x ∈ I.idx (nouns cs.length), ∀ k ∈ I.idx (nouns cs.sum),
      I.mat ((cs.map leg).foldr tensor (Diagram.id [])) x k = if k = (List.zipWith List.replicate cs x).flatten then 1 else 0
  | [] => by
      refine ⟨WT.id _, rfl, rfl, ?_⟩
      intro x hx k hk
      have h1 := (mem_nouns.1 hx).1
      have h2 := (mem_nouns.1 hk).1
      have e1 : x = [] := by simpa using h1
      have e2 : k = [] := by simpa using h2
      subst e1 e2
      simp [I.mat_id]
  | c :: cs => by
      obtain ⟨h1, h2, h3, h4⟩ := row_legs hI cs
      obtain ⟨l1, l2, l3⟩ := leg_wt c
      simp only [List.map_cons, List.foldr_cons]
      generalize (cs.map leg).foldr tensor (Diagram.id []) = d at *
      refine ⟨WT.tensor l1 h1, ?_, ?_, ?_⟩
      · rw [tensor_dom, l2, h2, nouns_add]; congr 1; simp; omega
      · rw [tensor_cod, l3, h3, nouns_add]; simp
      · intro x hx k hk
        rw [List.length_cons, Nat.add_comm, ← nouns_add] at hx
        rw [List.sum_cons, ← nouns_add] at hk
        obtain ⟨xa, x2, rfl, hx1, hx2⟩ := I.mem_append hx
        obtain ⟨k1, k2, rfl, hk1, hk2⟩ := I.mem_append hk
        have hl := (mem_nouns.1 hx1).1
        obtain ⟨a, rfl⟩ := List.length_eq_one_iff.1 hl
        rw [I.mat_tensor l1 h1 (by rw [l2]; exact hx1) (by rw [h2]; exact hx2) (by rw [l3]; exact hk1) (by rw [h3]; exact hk2),
          h4 x2 hx2 k2 hk2, mat_leg hI c a k1 hx1 hk1]
        have e : (List.zipWith List.replicate (c :: cs) ([a] ++ x2)).flatten = List.replicate c a ++ (List.zipWith List.replicate cs x2).flatten := by
          simp
        rw [e]
        have hlen := (mem_nouns.1 hk1).1
        have hiff : k1 ++ k2 = List.replicate c a ++ (List.zipWith List.replicate cs x2).flatten ↔
            k1 = List.replicate c a ∧ k2 = (List.zipWith List.replicate cs x2).flatten :=
          ⟨fun h => List.append_inj h (by simp [hlen]), fun ⟨p, q⟩ => by rw [p, q]⟩
        rw [if_congr hiff rfl rfl, ite_and]
        by_cases q : k1 = List.replicate c a
        · rw [if_pos q, if_pos q, one_mul]
        · rw [if_neg q, if_neg q, zero_mul]

theorem spidering_eq (ws : List Nat) (K : Nat) (hK : ws.foldr max 0 + 1 = K) :
    spidering ws = (((List.range K).map (fun w => ws.count w)).map leg).foldr tensor (Diagram.id []) := by
  unfold spidering
  rw [tensorN_eq_foldr, List.foldr_cons, hK, List.map_map]
  have : (fun w => if ws.count w = 1 then Diagram.id [noun] else ofBox (.base (.spider noun 1 (ws.count w)))) = (leg ∘ fun w => ws.count w) := by
    funext w; rfl
  rw [this]
  generalize ((List.range K).map (leg ∘ fun w => ws.count w)).foldr tensor (Diagram.id []) = d
  exact tensor_id_nil_left d

/-- The labels of the sorted wires. -/
theorem zip_blocks (ws : List Nat) (K : Nat) (hw : ∀ w ∈ ws, w < K) (x : List Nat) (hx : x.length = K) :
    (List.zipWith List.replicate ((List.range K).map (fun w => ws.count w)) x).flatten = (ws.insertionSort (· ≤ ·)).map (fun w => x.getD w 0) := by
  rw [sorted_blocks ws K hw, List.map_flatten, List.map_map]
  congr 1
  refine List.ext_getElem? (fun j => ?_)
  rcases Nat.lt_or_ge j K with h | h
  · rw [List.getElem?_zipWith, List.getElem?_map, List.getElem?_map, List.getElem?_range h, List.getElem?_eq_getElem (l := x) (by omega)]
    simp [List.getD_eq_getElem?_getD, List.getElem?_eq_getElem (l := x) (i := j) (by omega)]
  · rw [List.getElem?_eq_none (by simp [hx]; exact h), List.getElem?_eq_none (by simpa using h)]

theorem sum_counts (ws : List Nat) (K : Nat) (hw : ∀ w ∈ ws, w < K) : ((List.range K).map (fun w => ws.count w)).sum = ws.length := by
  have h := congrArg List.length (sorted_blocks ws K hw)
  rw [(List.perm_insertionSort (· ≤ ·) ws).length_eq] at h
  rw [h, List.length_flatten, List.map_map]
  congr 1
  refine List.map_congr_left (fun w _ => ?_)
  simp

theorem fdagger_sig (b : FBox) : BoxSig.dom (O := Ob) b.dagger = BoxSig.cod b ∧ BoxSig.cod (O := Ob) b.dagger = BoxSig.dom b := by
  cases b with
  | base b => exact Box.dagger_dom_cod b
  | frame n d c cs z => exact ⟨by simp [BoxSig.dom, BoxSig.cod, FBox.dagger, FBox.dom], by simp [BoxSig.dom, BoxSig.cod, FBox.dagger, FBox.cod]⟩
  | daggeredFrame f => exact ⟨by simp [BoxSig.dom, BoxSig.cod, FBox.dagger, FBox.cod], by simp [BoxSig.dom, BoxSig.cod, FBox.dagger, FBox.dom]⟩

/-- The boxes of a matcher. -/
def MBox (b : FBox) : Prop := (∃ c : Nat, b = .base (.spider noun 1 c)) ∨ ∃ x y : Ob, b = .base (.swap x y)

theorem row_boxes (cs : List Nat) : ∀ l ∈ ((cs.map leg).foldr tensor (Diagram.id [])).layers, MBox l.box := by
  induction cs with
  | nil => intro l hl; simp [Diagram.id] at hl
  | cons c cs ih =>
    rw [List.map_cons, List.foldr_cons, tensor_eq]
    intro l hl
    rcases List.mem_append.1 hl with hl | hl
    · obtain ⟨l', h', rfl⟩ := List.mem_map.1 hl
      unfold leg at h'
      by_cases h1 : c = 1
      · rw [if_pos h1] at h'; simp [Diagram.id] at h'
      · rw [if_neg h1] at h'
        simp only [ofBox, List.mem_singleton] at h'
        subst h'
        exact .inl ⟨c, rfl⟩
    · obtain ⟨l', h', rfl⟩ := List.mem_map.1 hl
      exact ih l' h'

theorem MBox.sig {b : FBox} (h : MBox b) : BoxSig.dom (O := Ob) b.dagger = BoxSig.cod b ∧ BoxSig.cod (O := Ob) b.dagger = BoxSig.dom b := by
  rcases h with ⟨c, rfl⟩ | ⟨x, y, rfl⟩
  · exact ⟨rfl, rfl⟩
  · exact ⟨rfl, rfl⟩

theorem swap_ten (hS : I.Swaps) (x y : Ob) : ∀ i ∈ I.idx [x, y], ∀ o ∈ I.idx [y, x],
    I.ten (FBox.base (.swap x y)).dagger o i = I.ten (FBox.base (.swap x y)) i o := by
  intro i hi' o ho'
  rw [I.mem_idx] at hi' ho'
  obtain _ | ⟨i1, hi'⟩ := hi'
  obtain _ | ⟨i2, hi'⟩ := hi'
  cases hi'
  obtain _ | ⟨o1, ho'⟩ := ho'
  obtain _ | ⟨o2, ho'⟩ := ho'
  cases ho'
  have e1 := hS x y _ _ _ _ i1 i2 o1 o2
  have e2 := hS y x _ _ _ _ o1 o2 i1 i2
  refine e2.trans (Eq.trans ?_ e1.symm)
  refine if_congr ?_ rfl rfl
  constructor
  · rintro ⟨h1, h2⟩; exact ⟨h2.symm, h1.symm⟩
  · rintro ⟨h1, h2⟩; exact ⟨h2.symm, h1.symm⟩

theorem MBox.ten (hS : I.Swaps) (hI : Spiders I) {b : FBox} (h : MBox b) : ∀ i ∈ I.idx (BoxSig.dom b), ∀ o ∈ I.idx (BoxSig.cod b),
    I.ten b.dagger o i = I.ten b i o := by
  rcases h with ⟨c, rfl⟩ | ⟨x, y, rfl⟩
  · intro i hi o ho
    have e : (FBox.base (.spider noun 1 c)).dagger = .base (.spider noun c 1) := rfl
    rw [e, hI c 1 o i ho hi, hI 1 c i o hi ho]
    refine if_congr ?_ rfl rfl
    simp only [List.mem_append]
    constructor
    · intro h a ha b hb; exact h a ha.symm b hb.symm
    · intro h a ha b hb; exact h a ha.symm b hb.symm
  · intro i hi o ho
    exact swap_ten hS x y i hi o ho

/-- The matcher: well typed, its map sends the label of every wire to all its positions, and its adjoint is the transpose. -/
theorem matcher_spec (hS : I.Swaps) (hI : Spiders I) (ws : List Nat) (K : Nat) (hw : ∀ w ∈ ws, w < K + 1) (hK : K ∈ ws) :
    ∃ m : FD, matcher ws = .ok m ∧ m.WT ∧ m.dom = nouns (K + 1) ∧ m.cod = nouns ws.length ∧
      (fdagger m).WT ∧ (fdagger m).dom = nouns ws.length ∧ (fdagger m).cod = nouns (K + 1) ∧
      (∀ x ∈ I.idx (nouns (K + 1)), ∀ z ∈ I.idx (nouns ws.length), I.mat m x z = if z = pick x ws then 1 else 0) ∧
      ∀ x ∈ I.idx (nouns (K + 1)), ∀ z ∈ I.idx (nouns ws.length), I.mat (fdagger m) z x = if z = pick x ws then 1 else 0 := by
  have hv := permList_valid ws
  have hv' : validPerm (nouns ws.length).length (permList ws) = true := by rw [nouns_length]; exact hv
  obtain ⟨q, q1, q2, q3, q4, q5⟩ := permutation_spec (B := FBox) (nouns ws.length) (permList ws) hv'
  rw [nouns_length] at q5
  have hsl : (ws.insertionSort (· ≤ ·)).length = ws.length := (List.perm_insertionSort (· ≤ ·) ws).length_eq
  have route : ∀ {γ : Type} (f : Nat → γ), routeWires q.layers ((ws.insertionSort (· ≤ ·)).map f) = ws.map f := by
    intro γ f
    have h1 := routeWires_of_range q.layers ((ws.insertionSort (· ≤ ·)).map f) ((permList ws).map Int.toNat) (by rw [List.length_map, hsl]; exact q5)
    rw [permList_labels] at h1
    exact List.map_injective_iff.2 (Option.some_injective _) h1
  have q6 : q.cod = nouns ws.length := by
    have h1 := chain_onlySwaps q3 q4
    rw [q2] at h1
    have h2 := route (fun _ => noun)
    have e1 : (ws.insertionSort (· ≤ ·)).map (fun _ => noun) = nouns ws.length := by rw [List.map_const', hsl]; rfl
    rw [e1] at h2
    rw [← h1, h2, List.map_const']; rfl
  have hmax := foldr_max ws K hw hK
  obtain ⟨r1, r2, r3, r4⟩ := row_legs hI ((List.range (K + 1)).map (fun w => ws.count w))
  rw [← spidering_eq ws (K + 1) (by rw [hmax])] at r1 r2 r3 r4
  have rb := row_boxes ((List.range (K + 1)).map (fun w => ws.count w))
  rw [← spidering_eq ws (K + 1) (by rw [hmax])] at rb
  rw [List.length_map, List.length_range] at r2 r4
  rw [sum_counts ws (K + 1) hw] at r3 r4
  have hc : (spidering ws).cod = q.dom := by rw [r3, q2]
  have hok : matcher ws = .ok (comp (spidering ws) q) := by
    have : matcher ws = andThen (spidering ws) q := by
      cases ws with
      | nil => simp at hK
      | cons a ws => unfold matcher; rw [q1]
    rw [this]; exact andThen_eq_ok hc
  have mwt : (comp (spidering ws) q).WT := comp_wt r1 q3 hc
  have hboxes : ∀ l ∈ (comp (spidering ws) q).layers, MBox l.box := by
    intro l hl
    rcases List.mem_append.1 hl with hl | hl
    · exact rb l hl
    · obtain ⟨x, y, h⟩ := q4 l hl
      exact .inr ⟨x, y, h⟩
  have hmat : ∀ x ∈ I.idx (nouns (K + 1)), ∀ z ∈ I.idx (nouns ws.length), I.mat (comp (spidering ws) q) x z = if z = pick x ws then 1 else 0 := by
    intro x hx z hz
    have hxl := (mem_nouns.1 hx).1
    have hz' : z ∈ I.idx q.cod := by rw [q6]; exact hz
    have hs : ∀ w ∈ ws.insertionSort (· ≤ ·), w < K + 1 := fun w h => hw w ((List.perm_insertionSort (· ≤ ·) ws).mem_iff.1 h)
    have hmem : pick x (ws.insertionSort (· ≤ ·)) ∈ I.idx (nouns ws.length) := by
      have := pick_mem hx hs
      rw [hsl] at this; exact this
    rw [I.mat_comp' q3 hc x hz', r3, Finset.sum_eq_single (pick x (ws.insertionSort (· ≤ ·)))]
    · have e : pick x (ws.insertionSort (· ≤ ·)) = (List.zipWith List.replicate ((List.range (K + 1)).map (fun w => ws.count w)) x).flatten :=
        (zip_blocks ws (K + 1) hw x hxl).symm
      rw [r4 x hx _ hmem, if_pos e, one_mul, I.mat_swaps hS q3 q4 (by rw [q2]; exact hmem) hz', pick, route]
      rfl
    · intro k hk hne
      have e : k ≠ (List.zipWith List.replicate ((List.range (K + 1)).map (fun w => ws.count w)) x).flatten := by
        rw [zip_blocks ws (K + 1) hw x hxl]; exact hne
      rw [r4 x hx k hk, if_neg e, zero_mul]
    · intro h; exact absurd hmem h
  have hdag := daggerWith_dom_cod FBox.dagger _ mwt
  refine ⟨_, hok, mwt, r2, q6, ?_, hdag.1.trans q6, hdag.2.1.trans r2, hmat, ?_⟩
  · exact WT.daggerWith FBox.dagger fdagger_sig mwt
  · intro x hx z hz
    let _ : StarRing R := starRingOfComm
    have := I.run_dagger_on FBox.dagger (ls := (comp (spidering ws) q).layers) (fun l hl => (hboxes l hl).sig) mwt
      (fun l hl i hi o ho => (hboxes l hl).ten hS hI i hi o ho) (x := x) (y := z) (by show x ∈ I.idx (spidering ws).dom; rw [r2]; exact hx) (by show z ∈ I.idx q.cod; rw [q6]; exact hz)
    rw [Interp.mat, fdagger, hdag.2.2, this]
    exact hmat x hx z hz

end Disco
end Lambeq
