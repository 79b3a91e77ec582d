import Verif.Rewrite.CompressProps

/-!
# Removing cups: which calls succeed, and what happens to the boxes (C57)
-/

namespace Lambeq
open Diagram GDiagram
set_option linter.unusedSimpArgs false
set_option linter.unusedVariables false

namespace DRewrite

/-! ## The first pass never fails -/

theorem gather_total (need : Nat) (left : GDiagram) (ds : List GDiagram) (right : GDiagram)
    (h : need ≤ (left.cod ++ right.cod ++ (tensorN ds).cod).length) : ∃ r, gather need left right ds = .ok r := by
  induction ds generalizing right with
  | nil =>
    rw [gather, if_neg (by simpa [tensorN_nil, Diagram.id] using h)]
    exact ⟨_, rfl⟩
  | cons e ds ih =>
    rw [gather]
    split
    · obtain ⟨r, hr⟩ := ih (tensor right e) (by
        rw [tensorN_cons] at h
        simp only [tensor_cod, List.length_append] at h ⊢
        omega)
      rw [hr, ok_bind]
      exact ⟨_, rfl⟩
    · exact ⟨_, rfl⟩

theorem cup_rotation {l r : Ob} {rev : Bool} (h : (Box.cup l r rev).Valid) :
    Ty.rotate (if Ty.r [l] = [r] then 1 else -1) [l] = [r] ∧ Ty.rotate (if Ty.r [l] = [r] then -1 else 1) [r] = [l] ∧
    rev = decide ([r] ≠ Ty.r [l]) := by
  cases rev with
  | false =>
    have h : [l] = Ty.l [r] := by simpa [Box.Valid, Box.cupAdjoint] using h
    have e : Ty.r [l] = [r] := by rw [h, Ty.l_r]
    rw [if_pos e, if_pos e]
    exact ⟨e, h.symm, by simp [e]⟩
  | true =>
    have h : [l] = Ty.r [r] := by simpa [Box.Valid, Box.cupAdjoint] using h
    have e : Ty.r [l] ≠ [r] := by
      intro h'
      rw [h] at h'
      simp only [Ty.r, Ty.rotate_rotate] at h'
      simp [Ty.rotate, Ty.rotOb] at h'
      have := congrArg Ob.z h'
      simp at this
    rw [if_neg e, if_neg e]
    refine ⟨?_, h.symm, by simp [Ne.symm e]⟩
    show Ty.l [l] = [r]
    rw [h, Ty.r_l]

theorem contract_total {left right : GDiagram} {b : Box} {L W : Ty} (hl : WF left) (hr : WF right) (hb : b.Valid)
    (hn : baseName b ≠ cupToken) (hc : left.cod ++ right.cod = L ++ (b.dom ++ W)) (hL : L.length < left.cod.length)
    (hmin : right.cod.length ≠ 0 → left.cod.length < L.length + b.dom.length) :
    ∃ new, contract left right b L.length = .ok new := by
  unfold contract
  have e1 : pySlice (left.cod ++ right.cod) none (some (L.length : Int)) = L := by
    rw [pySlice_nat_to, hc]; simp
  have e2 : pySlice (left.cod ++ right.cod) (some ((L.length + b.dom.length : Nat) : Int)) none = W := by
    rw [pySlice_nat_from, hc, ← List.append_assoc, ← List.length_append, List.drop_left]
  simp only [e1, e2]
  split
  · rename_i hcup
    rcases hcup with h1 | h1
    · exact absurd h1 (name_ne b hn)
    · obtain ⟨l, r, rev, rfl⟩ := isCup_cases h1
      obtain ⟨c1, c2, c3⟩ := cup_rotation hb
      have s1 : pySlice (Box.cup l r rev).dom none (some (((Box.cup l r rev).dom.length / 2 : Nat) : Int)) = [l] := by
        rw [pySlice_nat_to]; simp [Box.dom]
      have s2 : pySlice (Box.cup l r rev).dom (some (((Box.cup l r rev).dom.length / 2 : Nat) : Int)) none = [r] := by
        rw [pySlice_nat_from]; simp [Box.dom]
      have hlen : (Box.cup l r rev).dom.length / 2 = 1 := by simp [Box.dom]
      simp only [s1, s2]
      rw [hlen]
      have hc : left.cod ++ right.cod = L ++ ([l, r] ++ W) := by simpa [Box.dom] using hc
      have hd1 : (Box.cup l r rev).dom.length = 2 := by simp [Box.dom]
      rw [hd1] at hmin
      split
      · rename_i h
        have hL0 : L = [] := List.length_eq_zero_iff.1 (by omega)
        subst hL0
        have : left.cod ++ right.cod = [l] ++ ([r] ++ W) := by simpa using hc
        obtain ⟨q1, q2⟩ := List.append_inj this (by simp [h.1])
        have hdag := daggerPy_ok hl.1 hl.2
        rw [hdag.1, ok_bind, Rewrite.rotatePy_ok _ hdag.2.1, ok_bind]
        refine ⟨_, andThen_eq_ok ?_⟩
        rw [tensor_dom]
        show right.cod = Ty.rotate _ (Diagram.daggerWith Box.dagger left).dom ++ W
        rw [(daggerWith_dom_cod Box.dagger left hl.1).1, q1, c1, q2]
      · split
        · rename_i h
          have hW0 : W = [] := by
            have h1 := congrArg List.length hc
            have h2 := hmin (by omega)
            simp at h1
            exact List.length_eq_zero_iff.1 (by omega)
          subst hW0
          have : left.cod ++ right.cod = (L ++ [l]) ++ [r] := by simpa using hc
          obtain ⟨q1, q2⟩ := List.append_inj' this (by simp [h.1])
          have hdag := daggerPy_ok hr.1 hr.2
          rw [hdag.1, ok_bind, Rewrite.rotatePy_ok _ hdag.2.1, ok_bind]
          refine ⟨_, andThen_eq_ok ?_⟩
          rw [tensor_dom]
          show left.cod = L ++ Ty.rotate _ (Diagram.daggerWith Box.dagger right).dom
          rw [(daggerWith_dom_cod Box.dagger right hr.1).1, q2, c2, q1]
        · have : mkCup [l] [r] (decide ([r] ≠ Ty.r [l])) = .ok (ofBox (.cup l r rev)) := by
            rw [← c3]
            show (Box.atomicCup l r rev).map ofBox = _
            rw [Box.atomicCup, if_pos (by simpa [Box.Valid] using hb)]
            rfl
          rw [this, ok_bind]
          refine ⟨_, andThen_eq_ok ?_⟩
          rw [tensor_cod, hc, tensor_assoc]
          simp [tensor_dom, Diagram.id, ofBox, BoxSig.dom, Box.dom]
  · refine ⟨_, andThen_eq_ok ?_⟩
    rw [tensor_cod, hc, tensor_assoc]
    simp [tensor_dom, Diagram.id, ofBox, BoxSig.dom]

/-- An interpretation, used for the types only. -/
def unitInterp : Interp Ob Box Nat := stdInterp (fun _ => 1) (fun _ _ _ _ _ => 1)

theorem unit_compact : Compact unitInterp := stdInterp_compact _ _

theorem removeStep_total {ds : List GDiagram} {pre : GDiagram} {l : GLayer} (hinv : Inv unitInterp ds pre)
    (hpl : pre.cod = l.dom) (hb : l.box.Valid) (hn : baseName l.box ≠ cupToken) :
    ∃ ds', removeStep ds (l.box, l.left.length) = .ok ds' := by
  unfold removeStep
  obtain ⟨f1, f2, f3⟩ := findDiag_spec ds l.left.length
  simp only at f1 f2 f3 ⊢
  generalize hf : findDiag ds l.left.length = f at f1 f2 f3 ⊢
  obtain ⟨i, o⟩ := f
  simp only at f1 f2 f3 ⊢
  have hcod : (tensorN ds).cod = l.left ++ (l.box.dom ++ l.right) := by
    rw [hinv.same.2.1, hpl, Layer.dom, List.append_assoc]; rfl
  split
  · exact ⟨_, rfl⟩
  · rename_i hz
    cases hgi : ds[i]? with
    | none =>
      have hi : ds.length ≤ i := List.getElem?_eq_none_iff.1 hgi
      rw [List.take_of_length_le hi, hcod] at f2
      simp at f2
      refine absurd ⟨by omega, List.length_eq_zero_iff.1 (by omega)⟩ hz
    | some left =>
      have hilt : i < ds.length := by
        by_contra hcon
        rw [List.getElem?_eq_none (by omega)] at hgi
        simp at hgi
      have hdrop : ds.drop i = left :: ds.drop (i + 1) := by
        rw [List.drop_eq_getElem_cons hilt]
        rw [List.getElem?_eq_getElem hilt] at hgi
        injection hgi with hgi
        rw [hgi]
      have hc1 : (tensorN ds).cod = (tensorN (ds.take i)).cod ++ (left.cod ++ (tensorN (ds.drop (i + 1))).cod) := by
        conv_lhs => rw [← List.take_append_drop i ds]
        rw [tensorN_append, tensor_cod, hdrop, tensorN_cons, tensor_cod]
      have hlen := congrArg List.length (hc1.symm.trans hcod)
      simp only [List.length_append] at hlen
      simp only
      obtain ⟨g, hg⟩ := gather_total (o + l.box.dom.length) left (ds.drop (i + 1)) (Diagram.id [])
        (by simp [Diagram.id]; omega)
      rw [hg, ok_bind]
      obtain ⟨k1, k2, k3, k4⟩ := gather_spec _ _ _ _ _ hg
      rw [tensor_id_nil_left] at k2
      have hol := f3 left hgi
      let B := left :: (ds.drop (i + 1)).take g.2
      have hsplit : ds = ds.take i ++ B ++ ds.drop (i + (g.2 + 1)) := by
        have : ds.drop (i + (g.2 + 1)) = (ds.drop (i + 1)).drop g.2 := by rw [List.drop_drop]; congr 1; omega
        rw [this, List.append_assoc]
        simp only [B, List.cons_append, List.take_append_drop, ← hdrop]
      have hB : tensorN B = tensor left g.1 := by simp only [B, tensorN_cons, k2]
      have hc2 : (tensorN ds).cod = (tensorN (ds.take i)).cod ++ ((left.cod ++ g.1.cod) ++ (tensorN (ds.drop (i + (g.2 + 1)))).cod) := by
        conv_lhs => rw [hsplit]
        rw [List.append_assoc, tensorN_append, tensorN_append, tensor_cod, tensor_cod, hB, tensor_cod]
      rw [hc2] at hcod
      have hleft : l.left = (tensorN (ds.take i)).cod ++ (left.cod ++ g.1.cod).take o := by
        have := congrArg (List.take l.left.length) hcod
        rw [List.take_left, f2, List.take_append, List.take_of_length_le (by omega), Nat.add_sub_cancel_left,
          List.take_append_of_le_length (by omega)] at this
        exact this.symm
      have hrest : (left.cod ++ g.1.cod).drop o ++ (tensorN (ds.drop (i + (g.2 + 1)))).cod = l.box.dom ++ l.right := by
        have := List.append_cancel_left (hcod.trans (show _ = (tensorN (ds.take i)).cod ++
          ((left.cod ++ g.1.cod).take o ++ (l.box.dom ++ l.right)) by rw [hleft, List.append_assoc]))
        conv at this => lhs; rw [← List.take_append_drop o (left.cod ++ g.1.cod)]
        rw [List.append_assoc] at this
        exact List.append_cancel_left this
      have hdom : (left.cod ++ g.1.cod).drop o = l.box.dom ++ ((left.cod ++ g.1.cod).drop o).drop l.box.dom.length := by
        have hle : l.box.dom.length ≤ ((left.cod ++ g.1.cod).drop o).length := by
          rw [List.length_drop]; omega
        have := congrArg (List.take l.box.dom.length) hrest
        rw [List.take_left, List.take_append_of_le_length hle] at this
        conv_lhs => rw [← List.take_append_drop l.box.dom.length ((left.cod ++ g.1.cod).drop o)]
        rw [this]
      generalize hW : ((left.cod ++ g.1.cod).drop o).drop l.box.dom.length = W at hdom
      generalize hLg : (left.cod ++ g.1.cod).take o = L at hleft
      have hcB : left.cod ++ g.1.cod = L ++ (l.box.dom ++ W) := by
        rw [← hdom, ← hLg, List.take_append_drop]
      have hLo : L.length = o := by rw [← hLg, List.length_take]; simp at k3 ⊢; omega
      have wl : WF left := hinv.wf left (by rw [hsplit]; simp [B])
      have wr : WF g.1 := by
        rw [k2]; exact wf_tensorN (fun x hx => hinv.wf x (by rw [hsplit]; simp [B, hx]))
      obtain ⟨new, hnew⟩ := contract_total wl wr hb hn hcB (by omega) (by
        intro hne
        have h0 : g.2 ≠ 0 := by
          intro h0
          rw [k2, h0] at hne
          simp [tensorN_nil, Diagram.id] at hne
        have := k4 h0
        simp [Diagram.id] at this
        omega)
      rw [hLo] at hnew
      rw [hnew, ok_bind]
      exact ⟨_, rfl⟩

/-- The first pass succeeds on every well-formed diagram that does not use the reserved name. -/
theorem removeCupsPass_total {d : GDiagram} (hd : WF d) (ht : NoTok d) : ∃ r, removeCupsPass d = .ok r := by
  have key : ∀ (ls : List GLayer) (pre : GDiagram) (es : List GDiagram), (∀ l ∈ ls, l.box.Valid ∧ baseName l.box ≠ cupToken) →
      pre.WT → Chain pre.cod ls d.cod → Inv unitInterp es pre →
      ∃ ds, ((ls.map (·.box)).zip (ls.map (·.left.length))).foldlM removeStep es = .ok ds := by
    intro ls
    induction ls with
    | nil => intro pre es _ _ _ _; exact ⟨es, rfl⟩
    | cons l ls ih =>
      intro pre es hg wp hc hi
      obtain ⟨hc1, hc2⟩ := hc
      simp only [List.map_cons, List.zip_cons_cons, List.foldlM_cons]
      obtain ⟨es', s1⟩ := removeStep_total hi hc1.symm (hg l (by simp)).1 (hg l (by simp)).2
      rw [s1, ok_bind]
      exact ih (Diagram.comp pre (ofLayer l)) es' (fun m hm => hg m (by simp [hm])) (comp_wt wp (ofLayer_wt l) hc1.symm) hc2
        (removeStep_spec unit_compact hi wp hc1.symm ⟨(hg l (by simp)).1, .inl (hg l (by simp)).2⟩ s1 (fun _ => (hg l (by simp)).2))
  obtain ⟨ds, hds⟩ := key d.layers (Diagram.id d.dom) [Diagram.id d.dom]
    (fun l hl => ⟨hd.2 l hl, ht _ (List.mem_map.2 ⟨l, hl, rfl⟩)⟩) (WT.id _) hd.1
    ⟨by simp only [List.mem_singleton]; rintro g rfl; exact wf_id _, by simp only [List.mem_singleton]; rintro g rfl; exact noTok_id _,
      by rw [tensorN_cons, tensorN_nil, tensor_id_nil_right]; exact .refl _⟩
  unfold removeCupsPass Diagram.boxes Diagram.offsets
  rw [hds, ok_bind]
  exact ⟨_, rfl⟩


/-! ## Accounting for the boxes -/

/-- Cups and caps. -/
def isBend : Box → Bool
  | .cup _ _ _ => true
  | .cap _ _ _ => true
  | .daggered b => isBend b
  | _ => false

/-- A box up to daggers and rotations: for plain boxes and words the box of winding number 0. -/
def origin : Box → Box
  | .daggered b => origin b
  | .gen n d c z => .gen n (Ty.rotate (-z) d) (Ty.rotate (-z) c) 0
  | .word n c z => .word n (Ty.rotate (-z) c) 0
  | .swap l r => if l.name ≤ r.name then .swap ⟨l.name, 0⟩ ⟨r.name, 0⟩ else .swap ⟨r.name, 0⟩ ⟨l.name, 0⟩
  | .spider t n m => .spider ⟨t.name, 0⟩ (min n m) (max n m)
  | b => b

/-- The boxes other than cups and caps, up to daggers and rotations. -/
def names (bs : List Box) : List Box := (bs.filter (fun b => !isBend b)).map origin

/-- The number of cups and caps. -/
def bends (bs : List Box) : Nat := bs.countP isBend

theorem names_append (a b : List Box) : names (a ++ b) = names a ++ names b := by simp [names]
theorem bends_append (a b : List Box) : bends (a ++ b) = bends a + bends b := by simp [bends]

theorem bend_dagger (b : Box) : isBend b.dagger = isBend b := by cases b <;> rfl

theorem bend_rotate (z : Int) (b : Box) : isBend (b.rotate z) = isBend b := by
  induction b with
  | cup l r rev => simp only [Box.rotate]; split <;> rfl
  | cap l r rev => simp only [Box.rotate]; split <;> rfl
  | swap l r => simp only [Box.rotate]; split <;> rfl
  | daggered c ih => simpa only [Box.rotate, isBend] using ih
  | _ => rfl

theorem swap_names (a b : String) : (if a ≤ b then (Box.swap ⟨a, 0⟩ ⟨b, 0⟩) else .swap ⟨b, 0⟩ ⟨a, 0⟩)
    = if b ≤ a then (Box.swap ⟨b, 0⟩ ⟨a, 0⟩) else .swap ⟨a, 0⟩ ⟨b, 0⟩ := by
  by_cases h1 : a ≤ b
  · by_cases h2 : b ≤ a
    · rw [if_pos h1, if_pos h2, String.le_antisymm h1 h2]
    · rw [if_pos h1, if_neg h2]
  · rw [if_neg h1, if_pos ((String.le_total a b).resolve_left h1)]

theorem origin_dagger (b : Box) (h : isBend b = false) : origin b.dagger = origin b := by
  cases b with
  | cup _ _ _ => simp [isBend] at h
  | cap _ _ _ => simp [isBend] at h
  | swap l r => exact swap_names r.name l.name
  | spider t n m => simp only [Box.dagger, origin, Nat.min_comm, Nat.max_comm]
  | _ => rfl

theorem origin_rotate (z : Int) (b : Box) (h : isBend b = false) : origin (b.rotate z) = origin b := by
  induction b with
  | gen n d c z0 =>
    simp only [Box.rotate, origin, Ty.rotate_rotate, show z + -(z0 + z) = -z0 by omega]
  | word n c z0 =>
    simp only [Box.rotate, origin, Ty.rotate_rotate, show z + -(z0 + z) = -z0 by omega]
  | cup _ _ _ => simp [isBend] at h
  | cap _ _ _ => simp [isBend] at h
  | swap l r =>
    simp only [Box.rotate]
    split
    · exact swap_names r.name l.name
    · rfl
  | spider t n m => rfl
  | daggered c ih => exact ih h

theorem trans_boxes {z : Int} {d : GDiagram} (hd : d.WT) :
    (GDiagram.rotate z d.dagger).boxes = d.boxes.reverse.map (fun b => b.dagger.rotate z) := by
  simp only [Diagram.boxes, GDiagram.rotate, GDiagram.dagger, (daggerWith_dom_cod Box.dagger d hd).2.2, List.map_map, List.map_reverse]
  congr 1
  refine List.map_congr_left (fun l _ => ?_)
  simp only [Function.comp, GLayer.rotate]
  split <;> rfl

theorem trans_account {z : Int} {d : GDiagram} (hd : d.WT) :
    (names (GDiagram.rotate z d.dagger).boxes).Perm (names d.boxes) ∧ bends (GDiagram.rotate z d.dagger).boxes = bends d.boxes := by
  rw [trans_boxes hd]
  constructor
  · have : names (d.boxes.reverse.map (fun b => b.dagger.rotate z)) = (names d.boxes).reverse := by
      unfold names
      rw [List.filter_map, List.map_map, ← List.map_reverse, ← List.filter_reverse]
      have : ((fun b => !isBend b) ∘ fun b : Box => b.dagger.rotate z) = fun b => !isBend b := by
        funext b; simp [bend_rotate, bend_dagger]
      rw [this]
      refine List.map_congr_left (fun b hb => ?_)
      have := (List.mem_filter.1 hb).2
      have hb : isBend b = false := by simpa using this
      simp only [Function.comp]
      rw [origin_rotate _ _ ((bend_dagger b).trans hb), origin_dagger b hb]
    rw [this]
    exact List.reverse_perm _
  · unfold bends
    rw [List.countP_map]
    have : (isBend ∘ fun b : Box => b.dagger.rotate z) = isBend := by
      funext b; simp [bend_rotate, bend_dagger]
    rw [this]
    simp

theorem mkCup_account {t1 t2 : Ty} {rev : Bool} {d : GDiagram} (h : mkCup t1 t2 rev = .ok d) :
    names d.boxes = [] ∧ bends d.boxes = t1.length := by
  have key : (∀ b ∈ d.boxes, isBend b = true) → d.boxes.length = t1.length → names d.boxes = [] ∧ bends d.boxes = t1.length := by
    intro h1 h2
    constructor
    · unfold names
      rw [List.filter_eq_nil_iff.2 (by intro b hb; simp [h1 b hb])]
      rfl
    · unfold bends
      rw [List.countP_eq_length.2 h1, h2]
  cases rev with
  | false =>
    by_cases ht : t1 = Ty.l t2
    · obtain ⟨d', e1, e2, e3, e4, e5, e6, e7⟩ := (C13_cups t1 t2).2 ht
      rw [e1] at h
      injection h with h
      subst h
      refine key ?_ ?_
      · intro b hb
        obtain ⟨l, hl, rfl⟩ := List.mem_map.1 hb
        obtain ⟨x, y, e, _⟩ := e7 l hl
        rw [e]; rfl
      · rw [Diagram.boxes, List.length_map, e6, ht]
        simp [Ty.l]
    · rw [(C13_cups t1 t2).1 ht] at h
      simp at h
  | true =>
    rcases mkCup_true_cases h with ⟨rfl, rfl, rfl⟩ | ⟨l, r, rfl, rfl, hadj, rfl⟩
    · exact key (by intro b hb; simp [Diagram.boxes, Diagram.id] at hb) rfl
    · refine key ?_ rfl
      intro b hb
      simp [Diagram.boxes, ofBox] at hb
      subst hb; rfl

theorem boxes_wires (A B : Ty) (d : GDiagram) :
    (tensor (tensor (Diagram.id A) d) (Diagram.id B) : GDiagram).layers.map (·.box) = d.boxes := by
  show (tensor (tensor (Diagram.id A) d) (Diagram.id B) : GDiagram).boxes = _
  rw [boxes_tensor, boxes_tensor]; simp [boxes_id]

theorem boxes_wl (A : Ty) (d : GDiagram) : (tensor (Diagram.id A) d : GDiagram).layers.map (·.box) = d.boxes := by
  show (tensor (Diagram.id A) d : GDiagram).boxes = _
  rw [boxes_tensor]; simp [boxes_id]

theorem boxes_wr (A : Ty) (d : GDiagram) : (tensor d (Diagram.id A) : GDiagram).layers.map (·.box) = d.boxes := by
  show (tensor d (Diagram.id A) : GDiagram).boxes = _
  rw [boxes_tensor]; simp [boxes_id]

/-- What a box contributes: tokens stand for cups only. -/
def boxNames (b : Box) : List Box := if Rewrite.boxName b = cupToken then [] else names [b]
def boxBends (b : Box) : Nat := if Rewrite.boxName b = cupToken then b.dom.length / 2 else bends [b]

theorem contract_account {left right new : GDiagram} {b : Box} {o : Nat} (hl : WF left) (hr : WF right)
    (h : contract left right b o = .ok new) :
    (names new.boxes).Perm (names left.boxes ++ names right.boxes ++ boxNames b)
      ∧ bends new.boxes ≤ bends left.boxes + bends right.boxes + boxBends b := by
  unfold contract at h
  simp only at h
  split at h
  · rename_i hcup
    have hbn : boxNames b = [] := by
      unfold boxNames
      split
      · rfl
      · rename_i hn
        rcases hcup with h1 | h1
        · exact absurd h1 hn
        · obtain ⟨l, r, rev, rfl⟩ := isCup_cases h1
          rfl
    have hbb : b.dom.length / 2 ≤ boxBends b := by
      unfold boxBends
      split
      · exact Nat.le_refl _
      · rename_i hn
        rcases hcup with h1 | h1
        · exact absurd h1 hn
        · obtain ⟨l, r, rev, rfl⟩ := isCup_cases h1
          simp [Box.dom, bends, isBend]
    rw [hbn, List.append_nil]
    split at h
    · simp only [Functor.bind_ok_iff] at h
      obtain ⟨dg, h1, rot, h2, h3⟩ := h
      have hd := daggerPy_ok hl.1 hl.2
      rw [hd.1] at h1; injection h1 with h1; subst h1
      rw [Rewrite.rotatePy_ok _ hd.2.1] at h2; injection h2 with h2; subst h2
      obtain ⟨_, rfl⟩ := andThen_ok_iff.1 h3
      simp only [Diagram.boxes, List.map_append]
      rw [boxes_wr, names_append, bends_append, (trans_account hl.1).2]
      refine ⟨List.perm_append_comm.trans (List.Perm.append_right _ (trans_account hl.1).1), ?_⟩
      simp only [Diagram.boxes]
      omega
    · split at h
      · simp only [Functor.bind_ok_iff] at h
        obtain ⟨dg, h1, rot, h2, h3⟩ := h
        have hd := daggerPy_ok hr.1 hr.2
        rw [hd.1] at h1; injection h1 with h1; subst h1
        rw [Rewrite.rotatePy_ok _ hd.2.1] at h2; injection h2 with h2; subst h2
        obtain ⟨_, rfl⟩ := andThen_ok_iff.1 h3
        simp only [Diagram.boxes, List.map_append]
        rw [boxes_wl, names_append, bends_append, (trans_account hr.1).2]
        refine ⟨List.Perm.append_left _ (trans_account hr.1).1, ?_⟩
        simp only [Diagram.boxes]
        omega
      · simp only [Functor.bind_ok_iff] at h
        obtain ⟨nbox, h1, h2⟩ := h
        obtain ⟨m1, m2⟩ := mkCup_account h1
        obtain ⟨_, rfl⟩ := andThen_ok_iff.1 h2
        have hlr : (tensor left right : GDiagram).layers.map (·.box) = left.boxes ++ right.boxes := boxes_tensor left right
        simp only [Diagram.boxes, List.map_append]
        rw [boxes_wires, hlr, names_append, names_append, bends_append, bends_append, m1, m2, List.append_nil]
        refine ⟨List.Perm.refl _, ?_⟩
        rw [pySlice_nat_to, List.length_take]
        simp only [Diagram.boxes]
        omega
  · rename_i hn
    have hn1 : ¬ Rewrite.boxName b = cupToken := fun h => hn (.inl h)
    obtain ⟨_, rfl⟩ := andThen_ok_iff.1 h
    have hob : (ofBox b : GDiagram).boxes = [b] := rfl
    have hlr : (tensor left right : GDiagram).layers.map (·.box) = left.boxes ++ right.boxes := boxes_tensor left right
    simp only [Diagram.boxes, List.map_append]
    rw [boxes_wires, hob, hlr, names_append, names_append, bends_append, bends_append, boxNames, if_neg hn1, boxBends, if_neg hn1]
    exact ⟨List.Perm.refl _, Nat.le_refl _⟩

/-! ## Accounting for the atomic types -/

/-- All names of atomic types of the boxes satisfy `P`, and only plain boxes and words are wrapped in daggers. -/
def Named (P : String → Prop) (bs : List Box) : Prop := ∀ b ∈ bs, b.Simple ∧ ∀ o ∈ b.dom ++ b.cod, P o.name

theorem simple_trans {b : Box} (z : Int) (h : b.Simple) : (b.dagger.rotate z).Simple := by
  refine Functor.simple_rotate z ?_
  cases b with
  | daggered b => cases b <;> first | trivial | exact absurd h (by simp [Box.Simple])
  | _ => trivial

theorem Named.append {P : String → Prop} {a b : List Box} : Named P (a ++ b) ↔ Named P a ∧ Named P b := by
  simp only [Named, List.mem_append]
  exact ⟨fun h => ⟨fun c hc => h c (.inl hc), fun c hc => h c (.inr hc)⟩, fun h c hc => hc.elim (h.1 c) (h.2 c)⟩

theorem rotate_name {P : String → Prop} {z : Int} {t : Ty} (h : ∀ o ∈ t, P o.name) : ∀ o ∈ Ty.rotate z t, P o.name := by
  intro o ho
  unfold Ty.rotate at ho
  have : ∃ o' ∈ t, o = Ty.rotOb z o' := by
    split at ho
    · obtain ⟨o', h1, h2⟩ := List.mem_map.1 (List.mem_reverse.1 ho)
      exact ⟨o', h1, h2.symm⟩
    · obtain ⟨o', h1, h2⟩ := List.mem_map.1 ho
      exact ⟨o', h1, h2.symm⟩
  obtain ⟨o', h1, rfl⟩ := this
  exact h o' h1

theorem named_trans {P : String → Prop} {z : Int} {d : GDiagram} (hd : d.WT) (h : Named P d.boxes) : Named P (GDiagram.rotate z d.dagger).boxes := by
  rw [trans_boxes hd]
  intro b hb
  obtain ⟨c, hc, rfl⟩ := List.mem_map.1 hb
  obtain ⟨hs, h⟩ := h c (by simpa using hc)
  refine ⟨simple_trans z hs, fun o ho => ?_⟩
  rw [(Box.rotate_dom_cod z _).1, (Box.rotate_dom_cod z _).2, (Box.dagger_dom_cod c).1, (Box.dagger_dom_cod c).2] at ho
  rcases List.mem_append.1 ho with ho | ho
  · exact rotate_name (fun o ho => h o (List.mem_append_right _ ho)) o ho
  · exact rotate_name (fun o ho => h o (List.mem_append_left _ ho)) o ho

theorem named_mkCup {P : String → Prop} {t1 t2 : Ty} {rev : Bool} {d : GDiagram} (h : mkCup t1 t2 rev = .ok d) (hp : ∀ o ∈ t1 ++ t2, P o.name) :
    Named P d.boxes := by
  have hc : ∀ b ∈ d.boxes, ∃ x y r, b = .cup x y r ∧ x ∈ t1 ∧ y ∈ t2 := by
    cases rev with
    | false =>
      by_cases ht : t1 = Ty.l t2
      · obtain ⟨d', e1, e2, e3, e4, e5, e6, e7⟩ := (C13_cups t1 t2).2 ht
        rw [e1] at h
        injection h with h
        subst h
        intro b hb
        rw [Diagram.boxes, e5] at hb
        have key : ∀ (ps : List (Ob × Ob)) (b : Box), b ∈ (nestedCups ps).map (·.box) → ∃ p ∈ ps, b = .cup p.1 p.2 false := by
          intro ps
          induction ps with
          | nil => intro b hb; simp [nestedCups] at hb
          | cons p ps ih =>
            intro b hb
            simp only [nestedCups, List.map_cons, List.mem_cons, List.map_append, List.mem_append, List.map_nil, List.not_mem_nil, or_false] at hb
            rcases hb with rfl | hb
            · exact ⟨p, by simp, rfl⟩
            · obtain ⟨q, hq, e⟩ := ih b hb
              exact ⟨q, by simp [hq], e⟩
        obtain ⟨p, hp, e⟩ := key _ b hb
        have := List.of_mem_zip hp
        exact ⟨p.1, p.2, false, e, by simpa using this.1, this.2⟩
      · rw [(C13_cups t1 t2).1 ht] at h
        simp at h
    | true =>
      rcases mkCup_true_cases h with ⟨rfl, rfl, rfl⟩ | ⟨l, r, rfl, rfl, hadj, rfl⟩
      · intro b hb; simp [Diagram.boxes, Diagram.id] at hb
      · intro b hb
        simp [Diagram.boxes, ofBox] at hb
        exact ⟨l, r, true, hb, by simp, by simp⟩
  intro b hb
  obtain ⟨x, y, r, rfl, hx, hy⟩ := hc b hb
  refine ⟨trivial, fun o ho => ?_⟩
  simp only [Box.dom, Box.cod, List.append_nil, List.mem_cons, List.not_mem_nil, or_false] at ho
  rcases ho with rfl | rfl
  exacts [hp _ (List.mem_append_left _ hx), hp _ (List.mem_append_right _ hy)]

theorem contract_named {P : String → Prop} {left right new : GDiagram} {b : Box} {o : Nat} (hl : WF left) (hr : WF right)
    (h : contract left right b o = .ok new) (nl : Named P left.boxes) (nr : Named P right.boxes) (nb : Named P [b]) : Named P new.boxes := by
  have hlr : (tensor left right : GDiagram).layers.map (·.box) = left.boxes ++ right.boxes := boxes_tensor left right
  unfold contract at h
  simp only at h
  split at h
  · split at h
    · simp only [Functor.bind_ok_iff] at h
      obtain ⟨dg, h1, rot, h2, h3⟩ := h
      have hd := daggerPy_ok hl.1 hl.2
      rw [hd.1] at h1; injection h1 with h1; subst h1
      rw [Rewrite.rotatePy_ok _ hd.2.1] at h2; injection h2 with h2; subst h2
      obtain ⟨_, rfl⟩ := andThen_ok_iff.1 h3
      simp only [Diagram.boxes, List.map_append]
      rw [boxes_wr]
      exact Named.append.2 ⟨nr, named_trans hl.1 nl⟩
    · split at h
      · simp only [Functor.bind_ok_iff] at h
        obtain ⟨dg, h1, rot, h2, h3⟩ := h
        have hd := daggerPy_ok hr.1 hr.2
        rw [hd.1] at h1; injection h1 with h1; subst h1
        rw [Rewrite.rotatePy_ok _ hd.2.1] at h2; injection h2 with h2; subst h2
        obtain ⟨_, rfl⟩ := andThen_ok_iff.1 h3
        simp only [Diagram.boxes, List.map_append]
        rw [boxes_wl]
        exact Named.append.2 ⟨nl, named_trans hr.1 nr⟩
      · simp only [Functor.bind_ok_iff] at h
        obtain ⟨nbox, h1, h2⟩ := h
        obtain ⟨_, rfl⟩ := andThen_ok_iff.1 h2
        simp only [Diagram.boxes, List.map_append]
        rw [boxes_wires, hlr]
        refine Named.append.2 ⟨Named.append.2 ⟨nl, nr⟩, named_mkCup h1 (fun x hx => (nb b (by simp)).2 x (List.mem_append_left _ ?_))⟩
        rw [pySlice_nat_to, pySlice_nat_from, List.take_append_drop] at hx
        exact hx
  · obtain ⟨_, rfl⟩ := andThen_ok_iff.1 h
    have hob : (ofBox b : GDiagram).boxes = [b] := rfl
    simp only [Diagram.boxes, List.map_append]
    rw [boxes_wires, hob, hlr]
    exact Named.append.2 ⟨Named.append.2 ⟨nl, nr⟩, nb⟩

theorem tensorN_boxes (ds : List GDiagram) : (tensorN ds : GDiagram).boxes = ds.flatMap Diagram.boxes := by
  induction ds with
  | nil => rw [tensorN_nil]; rfl
  | cons d ds ih => rw [tensorN_cons, boxes_tensor, ih]; rfl

theorem removeStep_account {ds ds' : List GDiagram} {b : Box} {off : Nat} (hwf : ∀ g ∈ ds, WF g)
    (h : removeStep ds (b, off) = .ok ds') (hne : b.dom = [] → Rewrite.boxName b ≠ cupToken) :
    (names (ds'.flatMap Diagram.boxes)).Perm (names (ds.flatMap Diagram.boxes) ++ boxNames b)
      ∧ bends (ds'.flatMap Diagram.boxes) ≤ bends (ds.flatMap Diagram.boxes) + boxBends b
      ∧ ∀ P, Named P (ds.flatMap Diagram.boxes) → Named P [b] → Named P (ds'.flatMap Diagram.boxes) := by
  unfold removeStep at h
  simp only at h
  generalize hf : findDiag ds off = f at h
  obtain ⟨i, o⟩ := f
  simp only at h
  split at h
  · rename_i hz
    injection h with h
    subst h
    have hn := hne hz.2
    rw [boxNames, if_neg hn, boxBends, if_neg hn]
    have e : ds.flatMap Diagram.boxes = (ds.take i).flatMap Diagram.boxes ++ (ds.drop i).flatMap Diagram.boxes := by
      rw [← List.flatMap_append, List.take_append_drop]
    rw [e]
    simp only [List.flatMap_append, List.flatMap_cons, List.flatMap_nil, List.append_nil, names_append, bends_append, List.append_assoc]
    have hb : (ofBox b : GDiagram).boxes = [b] := rfl
    rw [hb]
    refine ⟨List.Perm.append_left _ List.perm_append_comm, by omega, fun P h1 h2 => ?_⟩
    rw [Named.append] at h1
    exact Named.append.2 ⟨h1.1, Named.append.2 ⟨h2, h1.2⟩⟩
  · cases hgi : ds[i]? with
    | none => rw [hgi] at h; simp at h
    | some left =>
      rw [hgi] at h
      simp only [Functor.bind_ok_iff] at h
      obtain ⟨g, h1, new, h2, h3⟩ := h
      injection h3 with h3
      subst h3
      obtain ⟨k1, k2, k3, _⟩ := gather_spec _ _ _ _ _ h1
      rw [tensor_id_nil_left] at k2
      have hilt : i < ds.length := by
        by_contra hcon
        rw [List.getElem?_eq_none (by omega)] at hgi
        simp at hgi
      have hdrop : ds.drop i = left :: ds.drop (i + 1) := by
        rw [List.drop_eq_getElem_cons hilt]
        rw [List.getElem?_eq_getElem hilt] at hgi
        injection hgi with hgi
        rw [hgi]
      let B := left :: (ds.drop (i + 1)).take g.2
      have hsplit : ds = ds.take i ++ B ++ ds.drop (i + (g.2 + 1)) := by
        have : ds.drop (i + (g.2 + 1)) = (ds.drop (i + 1)).drop g.2 := by rw [List.drop_drop]; congr 1; omega
        rw [this, List.append_assoc]
        simp only [B, List.cons_append, List.take_append_drop, ← hdrop]
      have wl : WF left := hwf left (by rw [hsplit]; simp [B])
      have wr : WF g.1 := by
        rw [k2]; exact wf_tensorN (fun x hx => hwf x (by rw [hsplit]; simp [B, hx]))
      obtain ⟨c1, c2⟩ := contract_account wl wr h2
      have hg : g.1.boxes = ((ds.drop (i + 1)).take g.2).flatMap Diagram.boxes := by rw [k2, tensorN_boxes]
      have e : ds.flatMap Diagram.boxes = (ds.take i).flatMap Diagram.boxes ++ ((left.boxes ++ g.1.boxes)
          ++ (ds.drop (i + (g.2 + 1))).flatMap Diagram.boxes) := by
        conv_lhs => rw [hsplit]
        simp only [List.flatMap_append, B, List.flatMap_cons, hg, List.append_assoc]
      rw [e]
      simp only [List.flatMap_append, List.flatMap_cons, List.flatMap_nil, List.append_nil, names_append, bends_append, List.append_assoc] at c1 ⊢
      refine ⟨?_, by omega, fun P p1 p2 => ?_⟩
      · refine List.Perm.append_left _ ?_
        refine (List.Perm.append_right _ c1).trans ?_
        simp only [List.append_assoc]
        exact List.Perm.append_left _ (List.Perm.append_left _ List.perm_append_comm)
      · simp only [Named.append] at p1
        exact Named.append.2 ⟨p1.1, Named.append.2 ⟨contract_named wl wr h2 p1.2.1 p1.2.2.1 p2, p1.2.2.2⟩⟩

end DRewrite
end Lambeq
