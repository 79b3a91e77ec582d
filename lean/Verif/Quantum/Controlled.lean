import Verif.Quantum.Bits
import Verif.Tensor.Adjoint
import Verif.Grammar.BoxProps

/-!
# Controlled gates

Properties of `Controlled.decompose` (quantum.py:965-987) and `Controlled.array` (995-1010).
-/

namespace Lambeq
open Diagram
set_option linter.unusedSectionVars false
set_option linter.unusedSimpArgs false

namespace Interp
variable {O B R : Type} [SwapSig B O] [DecidableEq O] [CommSemiring R] (I : Interp O B R)

/-- A box between a permutation of the wires and its inverse: the box acts on the wires that the permutation puts first. -/
theorem run_conj_perm (h : I.Swaps) (bdag : B → B) (hb : ∀ x y, bdag (SwapSig.swapBox x y) = SwapSig.swapBox y x) {a c : List O}
    {ls : List (Layer O B)} (hc : Chain a ls c) (hs : OnlySwaps ls) (b : B) (r : List O) (hd : c = BoxSig.dom b ++ r)
    (hcod : BoxSig.cod b = BoxSig.dom b) {x y xi xr yi yr : List Nat} (hx : x ∈ I.idx a) (hy : y ∈ I.idx a)
    (ex : routeWires ls x = xi ++ xr) (ey : routeWires ls y = yi ++ yr) (lx : xi.length = (BoxSig.dom b).length) (ly : yi.length = (BoxSig.dom b).length) :
    I.run (ls ++ [⟨[], b, r⟩] ++ ls.reverse.map (fun l => { l with box := bdag l.box })) (fun z => if z = x then 1 else 0) y =
      if xr = yr then I.ten b xi yi else 0 := by
  rw [I.run_append, I.run_swaps_dagger h bdag hb hc hs _ hy, I.run_append, ey]
  show I.act _ _ _ = _
  have hs2 := I.act_split ⟨[], b, r⟩ (I.run ls (fun z => if z = x then (1 : R) else 0)) (yl := []) (c := yi) yr rfl (by rw [hcod]; exact ly)
  simp only [List.nil_append] at hs2
  rw [hs2]
  have hmx := I.route_mem hc hs hx
  have hmy := I.route_mem hc hs hy
  rw [ex, hd] at hmx
  rw [ey, hd] at hmy
  have split : ∀ {u v : List Nat}, u ++ v ∈ I.idx (BoxSig.dom b ++ r) → u.length = (BoxSig.dom b).length → u ∈ I.idx (BoxSig.dom b) ∧ v ∈ I.idx r := by
    intro u v huv hl
    obtain ⟨u', v', e, h1, h2⟩ := I.mem_append huv
    obtain ⟨rfl, rfl⟩ := List.append_inj e (by rw [hl, I.length_of_mem h1])
    exact ⟨h1, h2⟩
  have key : ∀ i ∈ I.idx (BoxSig.dom b), I.run ls (fun z => if z = x then (1 : R) else 0) (i ++ yr) = if i = xi ∧ yr = xr then 1 else 0 := by
    intro i hi
    obtain ⟨w, hw, e⟩ := I.route_surj hc hs (y := i ++ yr) (by rw [hd]; exact I.append_mem hi (split hmy ly).2)
    rw [← e, I.run_swaps h hc hs _ hw]
    by_cases hwx : w = x
    · subst hwx
      rw [ex] at e
      obtain ⟨rfl, rfl⟩ := List.append_inj e (by rw [lx, I.length_of_mem hi])
      simp
    · rw [if_neg hwx, if_neg]
      rintro ⟨rfl, rfl⟩
      exact hwx (route_inj _ (by rw [e, ex]))
  rw [Finset.sum_congr rfl (fun i hi => by rw [key i hi])]
  by_cases hr : xr = yr
  · subst hr
    rw [if_pos rfl, Finset.sum_eq_single xi]
    · simp
    · intro i _ hne; simp [hne]
    · intro hn; exact absurd (split hmx lx).1 hn
  · rw [if_neg hr]
    exact Finset.sum_eq_zero (fun i _ => by rw [if_neg (fun e => hr e.2.symm), zero_mul])

end Interp

namespace Diagram
variable {O B : Type} [BoxSig B O]

theorem chain_dagger_on (bdag : B → B) {ls : List (Layer O B)}
    (hb : ∀ l ∈ ls, BoxSig.dom (bdag l.box) = BoxSig.cod l.box ∧ BoxSig.cod (bdag l.box) = BoxSig.dom l.box)
    {a c : List O} (h : Chain a ls c) : Chain c (ls.reverse.map (fun l => { l with box := bdag l.box })) a := by
  induction ls generalizing a with
  | nil => cases h; rfl
  | cons l ls ih =>
    rw [List.reverse_cons, List.map_append]
    refine (ih (fun m hm => hb m (List.mem_cons_of_mem _ hm)) h.2).append ⟨?_, ?_⟩
    · simp [Layer.dom, Layer.cod, (hb l (by simp)).1]
    · rw [← h.1]; simp [Chain, Layer.dom, Layer.cod, (hb l (by simp)).2]

end Diagram

namespace QBox
noncomputable section

theorem range'_split (a b c : Nat) (h : c = a + b) (k : Nat) : List.range' k c = List.range' k a ++ List.range' (k + a) b := by
  subst h
  simp [List.range'_append]

theorem ctrlPattern_pos (m k : Nat) : ctrlPattern m ((k : Int) + 1) =
    0 :: ((List.range' (k + 1) m).map Int.ofNat ++ (List.range' 1 k).map Int.ofNat) := by
  have e : ((k : Int) + 1).natAbs = k + 1 := by omega
  simp only [ctrlPattern, e, show (k : Int) + 1 > 0 by omega, if_true]
  rw [show m + (k + 1) - (1 + m) = k by omega, show m + (k + 1) - (k + 1) = m by omega]

theorem ctrlPattern_neg (m k : Nat) : ctrlPattern m (-((k : Int) + 1)) = ((m + k : Nat) : Int) :: (List.range (m + k)).map Int.ofNat := by
  have e : (-((k : Int) + 1)).natAbs = k + 1 := by omega
  simp only [ctrlPattern, e, show ¬ (-((k : Int) + 1) > 0) by omega, if_false]
  rw [show m + (k + 1) - 1 = m + k by omega]
  congr 1
  push_cast; omega

theorem int_cases {d : Int} (hd : d ≠ 0) : (∃ k : Nat, d = (k : Int) + 1) ∨ ∃ k : Nat, d = -((k : Int) + 1) := by
  rcases lt_or_gt_of_ne hd with h | h
  · exact .inr ⟨(-d - 1).toNat, by omega⟩
  · exact .inl ⟨(d - 1).toNat, by omega⟩

/-- The pattern of `decompose` is a permutation of the wires. -/
theorem ctrlPattern_valid (m : Nat) (d : Int) (hd : d ≠ 0) : validPerm (m + d.natAbs) (ctrlPattern m d) = true := by
  rw [validPerm_iff]
  rcases int_cases hd with ⟨k, rfl⟩ | ⟨k, rfl⟩
  · rw [ctrlPattern_pos, show ((k : Int) + 1).natAbs = k + 1 by omega]
    refine ⟨by simp; omega, ?_, ?_⟩
    · intro x hx
      simp only [List.mem_cons, List.mem_append, List.mem_map, List.mem_range'_1] at hx
      rcases hx with rfl | ⟨a, ha, rfl⟩ | ⟨a, ha, rfl⟩ <;> simp <;> omega
    · intro i hi
      simp only [List.mem_cons, List.mem_append, List.mem_map, List.mem_range'_1]
      rcases Nat.lt_or_ge i 1 with h | h
      · left; omega
      · rcases Nat.lt_or_ge i (k + 1) with h' | h'
        · right; right; exact ⟨i, by omega, rfl⟩
        · right; left; exact ⟨i, by omega, rfl⟩
  · rw [ctrlPattern_neg, show (-((k : Int) + 1)).natAbs = k + 1 by omega]
    refine ⟨by simp; omega, ?_, ?_⟩
    · intro x hx
      simp only [List.mem_cons, List.mem_map, List.mem_range] at hx
      rcases hx with rfl | ⟨a, ha, rfl⟩ <;> simp <;> omega
    · intro i hi
      simp only [List.mem_cons, List.mem_map, List.mem_range]
      rcases Nat.lt_or_ge i (m + k) with h' | h'
      · right; exact ⟨i, h', rfl⟩
      · left; omega

/-- The basis state `x` of the qubits of a gate controlled at distance `d`: control bit `c`, target bits `t` and the bits `s` of the qubits in
between. For a positive distance the control is the first qubit and the targets are the last; for a negative one the control is the last qubit and
the targets are the first. -/
def CtrlSplit (d : Int) (x : List Nat) (c : Nat) (s t : List Nat) : Prop :=
  s.length + 1 = d.natAbs ∧ x = if d > 0 then c :: (s ++ t) else t ++ s ++ [c]

theorem map_range'_get {α : Type} (u v w : List α) : (List.range' u.length v.length).map (fun i => (u ++ v ++ w)[i]?) = v.map some := by
  apply List.ext_getElem?
  intro i
  by_cases h : i < v.length
  · simp [List.getElem?_map, h, List.getElem?_append]
  · simp [List.getElem?_map, h]

/-- Where the pattern sends the wires. -/
theorem route_ctrl {ls : List (Layer QOb QBox)} {m : Nat} {d : Int} (hd : d ≠ 0) {x : List Nat} {c : Nat} {s t : List Nat}
    (h : routeWires ls (List.range (m + d.natAbs)) = (ctrlPattern m d).map Int.toNat) (hx : CtrlSplit d x c s t) (ht : t.length = m) :
    routeWires ls x = (c :: t) ++ s := by
  obtain ⟨hs, rfl⟩ := hx
  have hlen : (if d > 0 then c :: (s ++ t) else t ++ s ++ [c]).length = m + d.natAbs := by split <;> simp only [List.length_cons, List.length_append, List.length_nil] <;> omega
  have key := routeWires_of_range ls _ ((ctrlPattern m d).map Int.toNat) (by rw [hlen]; exact h)
  have hinj : Function.Injective (List.map (some : Nat → Option Nat)) := List.map_injective_iff.2 (Option.some_injective _)
  apply hinj
  rw [key]
  rcases int_cases hd with ⟨k, rfl⟩ | ⟨k, rfl⟩
  · have hk : s.length = k := by omega
    subst hk
    rw [ctrlPattern_pos, if_pos (by omega)]
    simp only [List.map_cons, List.map_append, List.map_map, Function.comp_def, Int.toNat_zero, Int.ofNat_eq_natCast, Int.toNat_natCast]
    have e1 := map_range'_get (c :: s) t []
    have e2 := map_range'_get [c] s t
    simp only [List.append_nil, List.length_cons, List.length_nil, List.cons_append, List.nil_append, Nat.zero_add] at e1 e2
    rw [ht] at e1
    rw [e1, e2]
    simp
  · have hk : s.length = k := by omega
    subst hk
    rw [ctrlPattern_neg, if_neg (by omega)]
    simp only [List.map_cons, List.map_append, List.map_map, Function.comp_def, Int.toNat_zero, Int.ofNat_eq_natCast, Int.toNat_natCast]
    have e1 := map_range'_get [] (t ++ s) [c]
    simp only [List.length_nil, List.nil_append, List.length_append, ht, ← List.range_eq_range'] at e1
    rw [e1]
    have : (t ++ s ++ [c])[m + s.length]? = some c := by
      rw [← ht, ← List.length_append]; simp
    rw [this]
    simp

theorem qubits_add (a b : Nat) : qubits a ++ qubits b = qubits (a + b) := by simp [qubits]

theorem swapAdj_perm {α : Type} (i : Nat) (xs : List α) : (swapAdj i xs).Perm xs := by
  unfold swapAdj
  conv_rhs => rw [← List.take_append_drop i xs]
  refine List.Perm.append_left _ ?_
  rcases xs.drop i with _ | ⟨a, _ | ⟨b, t⟩⟩
  · exact .refl _
  · exact .refl _
  · exact .swap _ _ _

theorem routeWires_perm {O B α : Type} (ls : List (Layer O B)) (xs : List α) : (routeWires ls xs).Perm xs := by
  induction ls generalizing xs with
  | nil => exact .refl _
  | cons l ls ih => exact (ih _).trans (swapAdj_perm _ _)

theorem chain_boxes_qubit {a c : List QOb} {ls : List (Layer QOb QBox)} (h : Chain a ls c) (ha : ∀ o ∈ a, o = .qubit) (hs : OnlySwaps ls) :
    ∀ l ∈ ls, ∀ o ∈ l.box.dom, o = .qubit := by
  induction ls generalizing a with
  | nil => simp
  | cons l ls ih =>
    obtain ⟨h1, h2⟩ := h
    obtain ⟨x, y, e⟩ := hs l (by simp)
    have hd : ∀ o ∈ l.dom, o = .qubit := by rw [h1]; exact ha
    intro m hm
    rcases List.mem_cons.1 hm with rfl | hm
    · intro o ho; exact hd o (by simp only [Layer.dom, List.mem_append]; exact .inl (.inr ho))
    · refine ih h2 (fun o ho => hd o ?_) (fun l hl => hs l (List.mem_cons_of_mem _ hl)) m hm
      have e' : l.box = swap x y := e
      simp only [Layer.cod, Layer.dom, e', List.mem_append] at ho ⊢
      rcases ho with (ho | ho) | ho
      · exact .inl (.inl ho)
      · left; right
        simp only [BoxSig.cod, BoxSig.dom, cod, dom, sig, List.mem_cons, List.not_mem_nil, or_false] at ho ⊢
        tauto
      · exact .inr ho

/-- `decompose` always succeeds; the result consists of qubit swaps and the gate at distance one, and acts as that gate on the control and target
qubits. -/
theorem decompose_spec (u : QBox) (d : Int) (hd : d ≠ 0) :
    ∃ e, decompose u d = .ok e ∧ e.dom = (controlled u d).dom ∧ e.cod = (controlled u d).cod ∧ e.WT ∧
      (∀ b ∈ e.boxes, b = controlled u 1 ∨ b = swap .qubit .qubit) ∧
      ∀ J : Interp QOb QBox ℂ, (∀ o, J.dim o = 2) → J.Swaps → ∀ x c s t y c' s' t', t.length = u.dom.length → t'.length = u.dom.length →
        Bits (u.dom.length + d.natAbs) x → Bits (u.dom.length + d.natAbs) y → CtrlSplit d x c s t → CtrlSplit d y c' s' t' →
        J.mat e x y = if s = s' then J.ten (controlled u 1) (c :: t) (c' :: t') else 0 := by
  by_cases h1 : d = 1
  · subst h1
    refine ⟨ofBox (controlled u 1), by simp [decompose], rfl, rfl, by simp [ofBox, Diagram.WT, Chain, Layer.dom, Layer.cod], by simp [ofBox, boxes], ?_⟩
    intro J hJ _ x c s t y c' s' t' ht ht' hx hy hxs hys
    obtain ⟨l1, rfl⟩ := hxs
    obtain ⟨l2, rfl⟩ := hys
    obtain rfl : s = [] := List.length_eq_zero_iff.1 (by simpa using l1)
    obtain rfl : s' = [] := List.length_eq_zero_iff.1 (by simpa using l2)
    simp only [show (1 : Int) > 0 by omega, if_true, List.nil_append] at hx hy ⊢
    refine J.mat_ofBox _ ((mem_idxQ hJ).2 ?_) ((mem_idxQ hJ).2 ?_)
    · show Bits (qubits _).length _; simpa [qubits, sig, dom] using hx
    · show Bits (qubits _).length _; simpa [qubits, sig, dom] using hy
  · have hv := ctrlPattern_valid u.dom.length d hd
    obtain ⟨perm, p1, p2, p3, p4, p5⟩ := permutation_spec (B := QBox) (qubits (u.dom.length + d.natAbs)) (ctrlPattern u.dom.length d)
      (by simpa [qubits] using hv)
    have hq : ∀ l ∈ perm.layers, ∃ x y, l.box = swap x y := p4
    have hlen : (qubits (u.dom.length + d.natAbs)).length = u.dom.length + d.natAbs := by simp [qubits]
    rw [hlen] at p5
    have hcod : perm.cod = qubits (u.dom.length + d.natAbs) := by
      have h0 := chain_onlySwaps (show Chain perm.dom perm.layers perm.cod from p3) p4
      have hl : perm.cod.length = u.dom.length + d.natAbs := by
        rw [← h0, p2, (routeWires_perm perm.layers _).length_eq, hlen]
      refine List.eq_replicate_iff.2 ⟨hl, fun o ho => ?_⟩
      rw [← h0, p2] at ho
      exact List.eq_of_mem_replicate ((routeWires_perm perm.layers _).subset ho)
    set sk := u.dom.length + d.natAbs - (1 + u.dom.length) with hsk
    have hsk' : u.dom.length + 1 + sk = u.dom.length + d.natAbs := by omega
    have c1 : perm.cod = (tensor (ofBox (controlled u 1)) (Diagram.id (qubits sk))).dom := by
      rw [hcod, tensor_dom]
      show _ = qubits _ ++ qubits _
      rw [qubits_add]; congr 1; exact hsk'.symm
    have tl : (tensor (ofBox (controlled u 1)) (Diagram.id (qubits sk))).layers = [⟨[], controlled u 1, qubits sk⟩] := by
      simp [tensor_layers, ofBox, Diagram.id, Layer.extend]
    have tc : (tensor (ofBox (controlled u 1)) (Diagram.id (qubits sk))).cod = perm.cod := by
      rw [c1, tensor_dom, tensor_cod]; rfl
    have dg := daggerWith_eq dagger perm p3
    have hdec : decompose u d = .ok ⟨perm.dom, perm.dom, perm.layers ++ [⟨[], controlled u 1, qubits sk⟩] ++
        perm.layers.reverse.map (fun l => { l with box := dagger l.box })⟩ := by
      simp only [decompose, if_neg h1, p1, ← hsk]
      rw [andThen_eq_ok c1]
      simp only
      rw [andThen_eq_ok (by rw [dg]; exact tc), dg, tl]
    have hch : Chain perm.dom perm.layers perm.cod := p3
    have hch2 : Chain perm.cod [⟨[], controlled u 1, qubits sk⟩] perm.cod := by
      refine ⟨?_, ?_⟩
      · rw [c1, tensor_dom]; rfl
      · show _ = perm.cod; rw [c1, tensor_dom]; rfl
    refine ⟨_, hdec, p2, p2, ?_, ?_, ?_⟩
    · refine (hch.append hch2).append (chain_dagger_on dagger (fun l hl => ?_) hch)
      obtain ⟨x, y, e⟩ := hq l hl
      rw [e]; exact ⟨rfl, rfl⟩
    · intro b hb
      have hdom : ∀ l ∈ perm.layers, l.box = swap .qubit .qubit := by
        intro l hl
        obtain ⟨x, y, e⟩ := hq l hl
        have := chain_boxes_qubit hch (by rw [p2]; exact fun o ho => List.eq_of_mem_replicate ho) p4 l hl
        rw [e] at this ⊢
        simp [sig, dom] at this
        rw [this.1, this.2]
      simp only [boxes, List.map_append, List.mem_append, List.map_cons, List.map_nil, List.mem_singleton, List.mem_map, List.mem_reverse, List.map_map,
        List.map_reverse, Function.comp_def] at hb
      rcases hb with (⟨l, hl, rfl⟩ | rfl) | ⟨l, hl, rfl⟩
      · exact .inr (hdom l hl)
      · exact .inl rfl
      · right; rw [hdom l hl]; rfl
    · intro J hJ hsw x c s t y c' s' t' ht ht' hx hy hxs hys
      have hdl : (BoxSig.dom (controlled u 1)).length = u.dom.length + 1 := by
        show (qubits _).length = _; simp [qubits, dom]
      exact J.run_conj_perm hsw dagger (fun _ _ => rfl) hch p4 (controlled u 1) (qubits sk) (by rw [c1, tensor_dom]; rfl) rfl
        ((mem_idxQ hJ).2 (by rw [p2, hlen]; exact hx)) ((mem_idxQ hJ).2 (by rw [p2, hlen]; exact hy))
        (route_ctrl hd p5 hxs ht) (route_ctrl hd p5 hys ht') (by rw [hdl]; simp [ht]) (by rw [hdl]; simp [ht'])

end
end QBox
end Lambeq
