import Verif.Quantum.CircuitalPull

/-!
# Conversion to circuital form: pulling a wire through layers (C84)
-/

namespace Lambeq
open Diagram
set_option linter.unusedSectionVars false
set_option linter.unusedSimpArgs false

theorem Interp.sum_idx_ins {O B R : Type} [BoxSig B O] [CommSemiring R] (I : Interp O B R) {p : Nat} {o : O} {t : List O} (hp : p ≤ t.length) (f : List Nat → R) :
    ∑ y ∈ I.idx (ins p o t), f y = ∑ s ∈ Finset.range (I.dim o), ∑ y ∈ I.idx t, f (ins p s y) := by
  have h2 : ∀ s, ∑ y ∈ I.idx t, f (ins p s y) = ∑ u ∈ I.idx (t.take p), ∑ v ∈ I.idx (t.drop p), f (u ++ s :: v) := by
    intro s
    conv_lhs => rw [← List.take_append_drop p t, I.sum_idx_append]
    refine Finset.sum_congr rfl (fun u hu => Finset.sum_congr rfl (fun v _ => ?_))
    have hl := I.length_of_mem hu
    rw [List.length_take, Nat.min_eq_left hp] at hl
    rw [← hl, ins_at]
  simp only [h2]
  rw [ins, I.sum_idx_append]
  refine Eq.trans ?_ Finset.sum_comm
  refine Finset.sum_congr rfl (fun u _ => ?_)
  rw [I.sum_idx_cons]

theorem Interp.ins_mem {O B R : Type} [BoxSig B O] [CommSemiring R] (I : Interp O B R) {p : Nat} {o : O} {t : List O} {s : Nat} {y : List Nat}
    (hs : s < I.dim o) (hy : y ∈ I.idx t) : ins p s y ∈ I.idx (ins p o t) := by
  rw [I.mem_idx] at *
  exact List.rel_append (List.forall₂_take p hy) (.cons hs (List.forall₂_drop p hy))

theorem Interp.mem_ins {O B R : Type} [BoxSig B O] [CommSemiring R] (I : Interp O B R) {p : Nat} {o : O} {t : List O} {z : List Nat} (hp : p ≤ t.length)
    (hz : z ∈ I.idx (ins p o t)) : ∃ s y, s < I.dim o ∧ y ∈ I.idx t ∧ z = ins p s y := by
  obtain ⟨u, v, rfl, hu, hv⟩ := I.mem_append hz
  have hv' := (I.mem_idx _ _).1 hv
  cases hv' with
  | cons hs hv2 =>
    rename_i s v
    refine ⟨s, u ++ v, hs, ?_, ?_⟩
    · have := I.append_mem hu ((I.mem_idx _ _).2 hv2)
      rwa [List.take_append_drop] at this
    · have hl := I.length_of_mem hu
      rw [List.length_take, Nat.min_eq_left hp] at hl
      rw [← hl, ins_at]

namespace QBox
noncomputable section

/-- `ls'` is `ls` with an idle qubit wire that enters at `p` and leaves at `q`. -/
structure Pulled (p q : Nat) (a c : List QOb) (ls ls' : List (Layer QOb QBox)) : Prop where
  chain : Chain (ins p .qubit a) ls' (ins q .qubit c)
  le : q ≤ c.length
  run : ∀ (V : List Nat → ℂ) (s : Nat), s < 4 → ∀ y ∈ cqI.idx c, cqI.run ls' V (ins q s y) = cqI.run ls (fun x => V (ins p s x)) y

theorem baseGate_nest {g : QBox} (hg : g.ctrlDists = []) (ds : List Int) : (nest g ds).baseGate = g ∧ (nest g ds).ctrlDists = ds := by
  induction ds with
  | nil => exact ⟨by cases g <;> first | rfl | exact absurd hg (by simp [ctrlDists]), hg⟩
  | cons d ds ih => exact ⟨ih.1, by simp [nest, ctrlDists, ih.2]⟩

theorem qOf_qubits {n : Nat} {i : List Nat} (h : i.length = n) : qOf (qubits n) i = i.map (· / 2) ∧ rOf (qubits n) i = i.map (· % 2) := by
  induction n generalizing i with
  | zero => rw [List.length_eq_zero_iff.1 h]; exact ⟨rfl, rfl⟩
  | succ n ih =>
    cases i with
    | nil => simp at h
    | cons a i =>
      have := ih (i := i) (by simpa using h)
      exact ⟨by simp only [qubits, List.replicate_succ, qOf, List.map_cons]; rw [← this.1]; rfl, by simp only [qubits, List.replicate_succ, rOf, List.map_cons]; rw [← this.2]; rfl⟩

theorem bits_half {n : Nat} {i : List Nat} (h : i ∈ cqI.idx (qubits n)) : i.length = n ∧ Bits n (i.map (· / 2)) ∧ Bits n (i.map (· % 2)) := by
  have hl := cqI.length_of_mem h
  rw [qubits_length] at hl
  obtain ⟨-, h2, h3⟩ := bits_of h
  rw [(qOf_qubits hl).1] at h2
  rw [(qOf_qubits hl).2] at h3
  have : (qubits n).count .qubit = n := by simp [qubits]
  rw [this] at h2 h3
  exact ⟨hl, h2, h3⟩

theorem cqTen_nest {g : QBox} (hg : OneQubit g) (hm : g.isMixed = false) : ∃ a, ∀ ds : List Int, ds ≠ [] → (∀ d ∈ ds, d ≠ 0) → ∀ i ∈ cqI.idx (qubits (width ds)), ∀ o ∈ cqI.idx (qubits (width ds)),
    cqI.ten (nest g ds) i o = ctrlOp (width ds) (controlPos ds) (targetPos ds) (amp a) (i.map (· / 2)) (o.map (· / 2)) *
      star (ctrlOp (width ds) (controlPos ds) (targetPos ds) (amp a) (i.map (· % 2)) (o.map (· % 2))) := by
  obtain ⟨a, ea, -⟩ := hg.good.array_ok
  refine ⟨a, fun ds hne h i hi o ho => ?_⟩
  obtain ⟨a', A, e1, e2, -, -, e5⟩ := C50_nested hg ds h
  obtain rfl : a = a' := by rw [ea] at e1; exact Except.ok.inj e1
  obtain ⟨hli, hi1, hi2⟩ := bits_half hi
  obtain ⟨hlo, ho1, ho2⟩ := bits_half ho
  obtain ⟨t1, t2⟩ := nest_type hg ds
  have hmix : (nest g ds).isMixed = false := by rw [isMixed_nest, hm]
  have e : cqI.ten (nest g ds) i o = cqVal (nest g ds) (cOf (nest g ds).dom i) (qOf (nest g ds).dom i) (rOf (nest g ds).dom i) (cOf (nest g ds).cod o)
      (qOf (nest g ds).cod o) (rOf (nest g ds).cod o) := by
    cases ds with
    | nil => exact absurd rfl hne
    | cons d ds => rfl
  rw [e, cqVal, hmix, e2, t1, t2, (qOf_qubits hli).1, (qOf_qubits hli).2, (qOf_qubits hlo).1, (qOf_qubits hlo).2]
  show A.get _ * star (A.get _) = _
  rw [e5 _ _ hi1 ho1, e5 _ _ hi2 ho2]

theorem act_swap (L R : List QOb) (o o' : QOb) (V : List Nat → ℂ) {yl yr : List Nat} {x y : Nat} (hl : yl.length = L.length) (hx : x < cqDim o') (hy : y < cqDim o) :
    cqI.act ⟨L, swap o o', R⟩ V (yl ++ (x :: y :: yr)) = V (yl ++ (y :: x :: yr)) := by
  have h := cqI.act_split ⟨L, swap o o', R⟩ V (yl := yl) (c := [x, y]) yr hl rfl
  have e : ∀ i ∈ cqI.idx [o, o'], V (yl ++ (i ++ yr)) * cqI.ten (swap o o') i [x, y] = if i = [y, x] then V (yl ++ (y :: x :: yr)) else 0 := by
    intro i _
    have e1 : cqI.ten (swap o o') i [x, y] = if [x, y] = i.reverse then 1 else 0 := rfl
    rw [e1]
    by_cases hi : i = [y, x]
    · subst hi; simp
    · have : ¬ [x, y] = i.reverse := fun h => hi (by rw [← List.reverse_reverse i, ← h]; rfl)
      rw [if_neg this, if_neg hi, mul_zero]
  refine (show cqI.act ⟨L, swap o o', R⟩ V (yl ++ ([x, y] ++ yr)) = _ from h).trans ?_
  refine (Finset.sum_congr rfl e).trans ?_
  rw [Finset.sum_ite_eq', if_pos ((cqI.mem_idx _ _).2 (.cons hy (.cons hx .nil)))]

/-- The layers through which the code pulls idle wires correctly: boxes with at most one input, swaps of qubits with qubits only on their left, and
controlled gates with the controls in the order of `Stretchable`. -/
def Pullable (l : Layer QOb QBox) : Prop :=
  l.box.dom.length ≤ 1 ∨ (l.box = swap .qubit .qubit ∧ ∀ o ∈ l.left, o = QOb.qubit) ∨
  ∃ g ds, l.box = nest g ds ∧ OneQubit g ∧ g.isMixed = false ∧ g.ctrlDists = [] ∧ Stretchable ds

theorem Stretchable.ne {ds : List Int} (h : Stretchable ds) : ∀ d ∈ ds, d ≠ 0 := by
  rcases h with h | ⟨-, h⟩ <;> intro d hd <;> have := h d hd <;> omega

theorem pulledStep {l : Layer QOb QBox} (hl : Pullable l) {p : Nat} (hp : p ≤ l.dom.length) :
    Pulled p (pullStep p l).2 l.dom l.cod [l] (pullStep p l).1 := by
  obtain ⟨L, b, R⟩ := l
  have hd : (⟨L, b, R⟩ : Layer QOb QBox).dom = L ++ (b.dom ++ R) := by show L ++ b.dom ++ R = _; simp
  have hc : (⟨L, b, R⟩ : Layer QOb QBox).cod = L ++ (b.cod ++ R) := by show L ++ b.cod ++ R = _; simp
  rw [hd, hc]
  rw [hd] at hp
  simp only [List.length_append] at hp
  by_cases h1 : p ≤ L.length
  · have e : pullStep p ⟨L, b, R⟩ = ([⟨ins p .qubit L, b, R⟩], p) := by simp [pullStep, h1]
    rw [e]
    refine ⟨?_, by simp; omega, ?_⟩
    · rw [ins_left h1, ins_left h1]
      exact ⟨by show _ ++ b.dom ++ R = _; simp, by show _ ++ b.cod ++ R = _; simp⟩
    · intro V s hs y hy
      obtain ⟨yl, y2, rfl, m1, m2⟩ := cqI.mem_append hy
      obtain ⟨c, yr, rfl, m3, m4⟩ := cqI.mem_append m2
      have k1 := cqI.length_of_mem m1
      have k3 : c.length = b.cod.length := cqI.length_of_mem m3
      simp only [Interp.run]
      rw [ins_left (by omega), cqI.act_split ⟨ins p .qubit L, b, R⟩ V yr (by rw [ins_length, ins_length, k1]) k3,
        cqI.act_split ⟨L, b, R⟩ _ yr k1 k3]
      exact Finset.sum_congr rfl (fun i _ => by rw [ins_left (by omega)])
  · by_cases h2 : p + 1 > L.length + b.dom.length
    · have e : pullStep p ⟨L, b, R⟩ = ([⟨L, b, ins (p - (L.length + b.dom.length)) .qubit R⟩], p - (L.length + b.dom.length) + L.length + b.cod.length) := by
        simp [pullStep, h1, h2]
      rw [e]
      have t1 : ins p QOb.qubit (L ++ (b.dom ++ R)) = L ++ (b.dom ++ ins (p - (L.length + b.dom.length)) .qubit R) := by
        rw [ins_right (by omega), ins_right (by omega)]
        congr 3; omega
      have t2 : ins (p - (L.length + b.dom.length) + L.length + b.cod.length) QOb.qubit (L ++ (b.cod ++ R)) =
          L ++ (b.cod ++ ins (p - (L.length + b.dom.length)) .qubit R) := by
        rw [ins_right (by omega), ins_right (by omega)]
        congr 3; omega
      refine ⟨?_, by simp; omega, ?_⟩
      · rw [t1, t2]
        exact ⟨by show L ++ b.dom ++ _ = _; simp, by show L ++ b.cod ++ _ = _; simp⟩
      · intro V s hs y hy
        obtain ⟨yl, y2, rfl, m1, m2⟩ := cqI.mem_append hy
        obtain ⟨c, yr, rfl, m3, m4⟩ := cqI.mem_append m2
        have k1 := cqI.length_of_mem m1
        have k3 : c.length = b.cod.length := cqI.length_of_mem m3
        have k4 := cqI.length_of_mem m4
        simp only [Interp.run]
        rw [ins_right (by omega), ins_right (by omega), cqI.act_split ⟨L, b, _⟩ V _ k1 k3, cqI.act_split ⟨L, b, R⟩ _ yr k1 k3]
        refine Finset.sum_congr rfl (fun i hi => ?_)
        have k5 : i.length = b.dom.length := cqI.length_of_mem hi
        rw [ins_right (by omega), ins_right (by omega)]
        congr 5
        omega
    · rcases hl with hl | ⟨hb, hL⟩ | ⟨g, ds, hb, hg, hm, hgc, hst⟩
      · change b.dom.length ≤ 1 at hl
        omega
      · change b = _ at hb
        subst hb
        change ∀ o ∈ L, o = QOb.qubit at hL
        have hpe : p = L.length + 1 := by simp [dom, sig] at h2; omega
        subst hpe
        have e : pullStep (L.length + 1) ⟨L, swap .qubit .qubit, R⟩ = ([⟨L, swap .qubit .qubit, .qubit :: R⟩, ⟨.qubit :: L, swap .qubit .qubit, R⟩,
            ⟨L, swap .qubit .qubit, .qubit :: R⟩], L.length + 1) := by
          simp [pullStep, dom, sig]
        have hrep : QOb.qubit :: L = L ++ [.qubit] := by
          have : L = List.replicate L.length .qubit := List.eq_replicate_iff.2 ⟨rfl, hL⟩
          rw [this, ← List.replicate_succ, ← List.replicate_succ']
        rw [e, hrep]
        have t : ins (L.length + 1) QOb.qubit (L ++ ([.qubit, .qubit] ++ R)) = L ++ (.qubit :: .qubit :: .qubit :: R) := by
          rw [ins_right (by omega), show L.length + 1 - L.length = 1 by omega]; rfl
        refine ⟨?_, by simp [cod, sig], ?_⟩
        · show Chain (ins (L.length + 1) .qubit (L ++ ([.qubit, .qubit] ++ R))) _ (ins (L.length + 1) .qubit (L ++ ([.qubit, .qubit] ++ R)))
          rw [t]
          refine ⟨?_, ?_, ?_, ?_⟩ <;> simp [Chain, Layer.dom, Layer.cod, BoxSig.dom, BoxSig.cod, dom, cod, sig]
        · intro V s hs y hy
          obtain ⟨yl, y2, rfl, m1, m2⟩ := cqI.mem_append hy
          obtain ⟨c, yr, rfl, m3, m4⟩ := cqI.mem_append m2
          have k1 := cqI.length_of_mem m1
          have m3' := (cqI.mem_idx _ _).1 m3
          cases m3' with
          | cons ha m3' =>
            cases m3' with
            | cons hb m3' =>
              cases m3'
              rename_i a b
              simp only [Interp.run]
              rw [ins_right (by omega), k1, show L.length + 1 - L.length = 1 by omega]
              show cqI.act _ _ (yl ++ (a :: s :: b :: yr)) = cqI.act _ _ (yl ++ (a :: b :: yr))
              rw [act_swap L R .qubit .qubit _ k1 ha hb, act_swap L (.qubit :: R) .qubit .qubit _ k1 ha hs,
                show yl ++ s :: a :: b :: yr = (yl ++ [s]) ++ (a :: b :: yr) by simp, act_swap (L ++ [QOb.qubit]) R .qubit .qubit _ (by simp [k1]) ha hb,
                show (yl ++ [s]) ++ (b :: a :: yr) = yl ++ (s :: b :: (a :: yr)) by simp, act_swap L (.qubit :: R) .qubit .qubit _ k1 hs hb,
                ins_right (by omega), k1, show L.length + 1 - L.length = 1 by omega]
              rfl
      · change b = _ at hb
        subst hb
        obtain ⟨t1, t2⟩ := nest_type hg ds
        have hw : (nest g ds).dom.length = width ds := by rw [t1, qubits_length]
        rw [hw] at h2 hp
        obtain ⟨k, rfl⟩ : ∃ k, p = L.length + k := ⟨p - L.length, by omega⟩
        cases ds with
        | nil => simp only [width] at h2; omega
        | cons d ds =>
          have hb := baseGate_nest hgc (d :: ds)
          have e : pullStep (L.length + k) ⟨L, nest g (d :: ds), R⟩ =
              ([⟨L, nest g (stretchLoop ((L.length + k : Nat) : Int) (firstPos L.length (d :: ds)) (d :: ds)), R⟩], L.length + k) := by
            have : pullStep (L.length + k) ⟨L, nest g (d :: ds), R⟩ = ([⟨L, stretch (L.length + k) L.length (nest g (d :: ds)), R⟩], L.length + k) := by
              unfold pullStep
              simp only [hw]
              rw [if_neg h1, if_neg h2]
              rfl
            rw [this, stretch, hb.1, hb.2]
          obtain ⟨s0, s1, s2, s3, s4⟩ := stretch_dists hst (p := k) (off := L.length) (by omega) (by omega)
          rw [e]
          generalize stretchLoop ((L.length + k : Nat) : Int) (firstPos L.length (d :: ds)) (d :: ds) = ds' at s0 s1 s2 s3 s4
          obtain ⟨u1, u2⟩ := nest_type hg ds'
          have hk : k ≤ width (d :: ds) := by omega
          have hins : ins k QOb.qubit (qubits (width (d :: ds))) = qubits (width ds') := by rw [s2]; exact ins_replicate hk
          have hdom : ∀ t : List QOb, ins (L.length + k) QOb.qubit (L ++ (qubits (width (d :: ds)) ++ t)) = L ++ (qubits (width ds') ++ t) := by
            intro t
            rw [ins_right (by omega), ins_left (by rw [qubits_length]; omega), show L.length + k - L.length = k by omega, hins]
          refine ⟨?_, by rw [t2]; simp [qubits_length]; omega, ?_⟩
          · rw [t1, t2, hdom]
            exact ⟨by show L ++ (nest g ds').dom ++ R = _; rw [u1]; simp, by show L ++ (nest g ds').cod ++ R = _; rw [u2]; simp⟩
          · intro V s hs y hy
            obtain ⟨yl, y2, rfl, m1, m2⟩ := cqI.mem_append hy
            obtain ⟨c, yr, rfl, m3, m4⟩ := cqI.mem_append m2
            have k1 := cqI.length_of_mem m1
            rw [t2] at m3
            have k3 := cqI.length_of_mem m3
            rw [qubits_length] at k3
            simp only [Interp.run]
            have hc' : ins k s c ∈ cqI.idx (qubits (width ds')) := by
              rw [← hins]; exact cqI.ins_mem (o := QOb.qubit) hs m3
            rw [ins_right (by omega), ins_left (by omega), show L.length + k - yl.length = k by omega,
              cqI.act_split ⟨L, nest g ds', R⟩ V yr k1 (by show _ = (nest g ds').cod.length; rw [u2, cqI.length_of_mem hc']),
              cqI.act_split ⟨L, nest g (d :: ds), R⟩ _ yr k1 (by show _ = (nest g (d :: ds)).cod.length; rw [t2, qubits_length, k3])]
            show ∑ i ∈ cqI.idx (nest g ds').dom, _ = ∑ i ∈ cqI.idx (nest g (d :: ds)).dom, _
            rw [t1, u1, ← hins, cqI.sum_idx_ins (by rw [qubits_length]; omega), Finset.sum_comm]
            refine Finset.sum_congr rfl (fun i hi => ?_)
            have ki := cqI.length_of_mem hi
            rw [qubits_length] at ki
            obtain ⟨a, ha⟩ := cqTen_nest hg hm
            have hne' : ds' ≠ [] := by intro h; rw [h] at s0; simp at s0
            have key : ∀ s' ∈ Finset.range (cqI.dim .qubit), V (yl ++ (ins k s' i ++ yr)) * cqI.ten (nest g ds') (ins k s' i) (ins k s c) =
                if s' = s then V (yl ++ (ins k s i ++ yr)) * cqI.ten (nest g (d :: ds)) i c else 0 := by
              intro s' hs'
              have hs'' : s' < 4 := Finset.mem_range.1 hs'
              have hi' : ins k s' i ∈ cqI.idx (qubits (width ds')) := by
                rw [← hins]; exact cqI.ins_mem (o := QOb.qubit) hs'' hi
              rw [ha ds' hne' s1.ne _ hi' _ hc', ha (d :: ds) (by simp) hst.ne _ hi _ m3, s2, s3, s4, ins_map, ins_map, ins_map, ins_map,
                ctrlOp_ins (by simpa using ki) (by simpa using k3) hk, ctrlOp_ins (by simpa using ki) (by simpa using k3) hk]
              by_cases hss : s' = s
              · subst hss; simp
              · have : ¬ (s' / 2 = s / 2 ∧ s' % 2 = s % 2) := by omega
                rw [if_neg hss]
                by_cases h5 : s' / 2 = s / 2
                · have h6 : ¬ s' % 2 = s % 2 := fun h => this ⟨h5, h⟩
                  rw [if_neg h6]; simp
                · rw [if_neg h5]; simp
            rw [Finset.sum_congr rfl key, Finset.sum_ite_eq', if_pos (show s ∈ Finset.range (cqI.dim QOb.qubit) from Finset.mem_range.2 hs)]
            rw [ins_right (by omega), ins_left (by omega), show L.length + k - yl.length = k by omega]

theorem Pulled.cons {p q r : Nat} {a b c : List QOb} {l ls l' ls'} (hc : Chain b ls c) (h1 : Pulled p q a b l l') (h2 : Pulled q r b c ls ls') : Pulled p r a c (l ++ ls) (l' ++ ls') := by
  refine ⟨h1.chain.append h2.chain, h2.le, fun V s hs y hy => ?_⟩
  rw [cqI.run_append, cqI.run_append, h2.run _ s hs y hy]
  exact cqI.run_congr hc (fun x hx => h1.run V s hs x hx) y hy

theorem pulled {ls : List (Layer QOb QBox)} {a c : List QOb} (hc : Chain a ls c) (hl : ∀ l ∈ ls, Pullable l) {p : Nat} (hp : p ≤ a.length) :
    Pulled p (pull p ls).2 a c ls (pull p ls).1 := by
  induction ls generalizing a p with
  | nil =>
    obtain rfl : a = c := hc
    exact ⟨rfl, hp, fun V s hs y hy => rfl⟩
  | cons l ls ih =>
    obtain ⟨rfl, hc⟩ := hc
    have h1 := pulledStep (hl l (by simp)) hp
    exact Pulled.cons hc h1 (ih hc (fun l hl' => hl l (List.mem_cons_of_mem _ hl')) h1.le)

end
end QBox
end Lambeq
