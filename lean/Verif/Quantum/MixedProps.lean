import Verif.Quantum.MixedNet

/-!
# Mixed evaluation of circuits (C74): the network computes the classical-quantum map
-/

namespace Lambeq
open Diagram
set_option linter.unusedSectionVars false
set_option linter.unusedSimpArgs false

namespace QBox
noncomputable section

/-! ## Classical-quantum indices

A wire of type `bit` has the indices 0, 1; a wire of type `qubit` has the indices `2 * q + r` for the two copies `q`, `r` of the wire. -/

def cqDim : QOb → Nat
  | .bit => 2
  | .qubit => 4

/-- The indices of the classical wires. -/
def cOf : List QOb → List Nat → List Nat
  | .bit :: t, a :: s => a :: cOf t s
  | .qubit :: t, _ :: s => cOf t s
  | _, _ => []

/-- The indices of the first copies of the quantum wires. -/
def qOf : List QOb → List Nat → List Nat
  | .bit :: t, _ :: s => qOf t s
  | .qubit :: t, a :: s => a / 2 :: qOf t s
  | _, _ => []

/-- The indices of the second copies of the quantum wires. -/
def rOf : List QOb → List Nat → List Nat
  | .bit :: t, _ :: s => rOf t s
  | .qubit :: t, a :: s => a % 2 :: rOf t s
  | _, _ => []

/-- The index with the given components. -/
def enc : List QOb → List Nat → List Nat → List Nat → List Nat
  | .bit :: t, a :: c, q, r => a :: enc t c q r
  | .qubit :: t, c, a :: q, b :: r => (2 * a + b) :: enc t c q r
  | _, _, _, _ => []

/-- The array of a mixed box; discarding is the pairing of the two copies. -/
def cqNode : QBox → Except PyErr (NdArray ℂ)
  | discard => .ok (copyArray ℂ 2 2)
  | b => b.mixedNode

/-- The value of a box on the components of its indices. -/
def cqVal (b : QBox) (ci qi ri co qo ro : List Nat) : ℂ :=
  if b.isMixed then
    match b.cqNode with
    | .ok a => a.get (ci ++ (qi ++ ri) ++ (co ++ (qo ++ ro)))
    | .error _ => 0
  else match b.array with
    | .ok a => a.get (qi ++ qo) * star (a.get (ri ++ ro))
    | .error _ => 0

/-- The tensor of a box for mixed evaluation. -/
def cqTen (b : QBox) (i o : List Nat) : ℂ :=
  match b with
  | swap _ _ => if o = i.reverse then 1 else 0
  | b => cqVal b (cOf b.dom i) (qOf b.dom i) (rOf b.dom i) (cOf b.cod o) (qOf b.cod o) (rOf b.cod o)

/-- The classical-quantum interpretation. -/
def cqI : Interp QOb QBox ℂ := ⟨cqDim, cqTen⟩

theorem count_cons_bit (t : List QOb) : (QOb.bit :: t).count .bit = t.count .bit + 1 ∧ (QOb.bit :: t).count .qubit = t.count .qubit := by simp
theorem count_cons_qubit (t : List QOb) : (QOb.qubit :: t).count .bit = t.count .bit ∧ (QOb.qubit :: t).count .qubit = t.count .qubit + 1 := by simp

theorem idx_cons {o : QOb} {t : List QOb} {s : List Nat} (h : s ∈ cqI.idx (o :: t)) : ∃ a s', s = a :: s' ∧ a < cqDim o ∧ s' ∈ cqI.idx t := by
  rw [Interp.mem_idx] at h
  cases h with
  | cons h1 h2 => exact ⟨_, _, rfl, h1, (cqI.mem_idx _ _).2 h2⟩

theorem bits_of {t : List QOb} {s : List Nat} (h : s ∈ cqI.idx t) : Bits (t.count .bit) (cOf t s) ∧ Bits (t.count .qubit) (qOf t s) ∧ Bits (t.count .qubit) (rOf t s) := by
  induction t generalizing s with
  | nil => exact ⟨Bits.nil, Bits.nil, Bits.nil⟩
  | cons o t ih =>
    obtain ⟨a, s, rfl, ha, hs⟩ := idx_cons h
    obtain ⟨h1, h2, h3⟩ := ih hs
    cases o with
    | bit =>
      rw [(count_cons_bit t).1, (count_cons_bit t).2]
      exact ⟨h1.cons ha, h2, h3⟩
    | qubit =>
      rw [(count_cons_qubit t).1, (count_cons_qubit t).2]
      have ha : a < 4 := ha
      exact ⟨h1, h2.cons (by omega), h3.cons (by omega)⟩

theorem of_append {t t' : List QOb} {s s' : List Nat} (h : s.length = t.length) :
    cOf (t ++ t') (s ++ s') = cOf t s ++ cOf t' s' ∧ qOf (t ++ t') (s ++ s') = qOf t s ++ qOf t' s' ∧ rOf (t ++ t') (s ++ s') = rOf t s ++ rOf t' s' := by
  induction t generalizing s with
  | nil => cases s <;> simp_all [cOf, qOf, rOf]
  | cons o t ih =>
    cases s with
    | nil => simp at h
    | cons a s =>
      obtain ⟨h1, h2, h3⟩ := ih (s := s) (by simpa using h)
      cases o <;> simp [cOf, qOf, rOf, h1, h2, h3]

theorem enc_spec {t : List QOb} {c q r : List Nat} (hc : Bits (t.count .bit) c) (hq : Bits (t.count .qubit) q) (hr : Bits (t.count .qubit) r) :
    enc t c q r ∈ cqI.idx t ∧ cOf t (enc t c q r) = c ∧ qOf t (enc t c q r) = q ∧ rOf t (enc t c q r) = r := by
  induction t generalizing c q r with
  | nil => obtain rfl := hc.eq_nil; obtain rfl := hq.eq_nil; obtain rfl := hr.eq_nil; simp [enc, Interp.idx, cOf, qOf, rOf]
  | cons o t ih =>
    cases o with
    | bit =>
      rw [(count_cons_bit t).1] at hc
      rw [(count_cons_bit t).2] at hq hr
      obtain ⟨a, c, rfl, ha, hc⟩ := hc.uncons
      obtain ⟨h0, h1, h2, h3⟩ := ih hc hq hr
      refine ⟨(cqI.mem_idx _ _).2 (.cons ha ((cqI.mem_idx _ _).1 h0)), ?_, ?_, ?_⟩ <;> simp [enc, cOf, qOf, rOf, h1, h2, h3]
    | qubit =>
      rw [(count_cons_qubit t).1] at hc
      rw [(count_cons_qubit t).2] at hq hr
      obtain ⟨a, q, rfl, ha, hq⟩ := hq.uncons
      obtain ⟨b, r, rfl, hb, hr⟩ := hr.uncons
      obtain ⟨h0, h1, h2, h3⟩ := ih hc hq hr
      refine ⟨(cqI.mem_idx _ _).2 (.cons (show 2 * a + b < 4 by omega) ((cqI.mem_idx _ _).1 h0)), ?_, ?_, ?_⟩ <;> simp [enc, cOf, qOf, rOf, h1, h2, h3]
      · omega
      · omega

theorem of_inj {t : List QOb} {s s' : List Nat} (h : s ∈ cqI.idx t) (h' : s' ∈ cqI.idx t) (hc : cOf t s = cOf t s') (hq : qOf t s = qOf t s')
    (hr : rOf t s = rOf t s') : s = s' := by
  induction t generalizing s s' with
  | nil => simp [Interp.idx] at h h'; rw [h, h']
  | cons o t ih =>
    obtain ⟨a, s, rfl, ha, hs⟩ := idx_cons h
    obtain ⟨b, s', rfl, hb, hs'⟩ := idx_cons h'
    cases o with
    | bit =>
      simp only [cOf, qOf, rOf, List.cons.injEq] at hc hq hr
      rw [hc.1, ih hs hs' hc.2 hq hr]
    | qubit =>
      simp only [cOf, qOf, rOf, List.cons.injEq] at hc hq hr
      rw [ih hs hs' hc hq.2 hr.2, show a = b by omega]

/-- A sum over the indices of a type is a sum over the components. -/
theorem sum_cq {R : Type} [AddCommMonoid R] (t : List QOb) (f : List Nat → List Nat → List Nat → R) :
    ∑ s ∈ cqI.idx t, f (cOf t s) (qOf t s) (rOf t s) = ∑ c ∈ allBits (t.count .bit), ∑ q ∈ allBits (t.count .qubit), ∑ r ∈ allBits (t.count .qubit), f c q r := by
  have key : ∀ (o : QOb) (t : List QOb) (g : List Nat → R), ∑ s ∈ cqI.idx (o :: t), g s = ∑ a ∈ Finset.range (cqDim o), ∑ s ∈ cqI.idx t, g (a :: s) := by
    intro o t g
    rw [Interp.idx, Finset.sum_image, Finset.sum_product]
    · rfl
    · rintro ⟨a, b⟩ _ ⟨c, d⟩ _ h
      simpa using h
  induction t generalizing f with
  | nil => simp [Interp.idx, sum_allBits_zero, cOf, qOf, rOf]
  | cons o t ih =>
    rw [key]
    cases o with
    | bit =>
      rw [(count_cons_bit t).1, (count_cons_bit t).2, sum_allBits_succ]
      simp only [cqDim, Finset.sum_range_succ, Finset.range_zero, Finset.sum_empty, zero_add, cOf, qOf, rOf]
      rw [ih (fun c q r => f (0 :: c) q r), ih (fun c q r => f (1 :: c) q r)]
    | qubit =>
      rw [(count_cons_qubit t).1, (count_cons_qubit t).2]
      simp only [sum_allBits_succ, cqDim, Finset.sum_range_succ, Finset.range_zero, Finset.sum_empty, zero_add, cOf, qOf, rOf, Finset.sum_add_distrib]
      rw [ih (fun c q r => f c (0 / 2 :: q) (0 % 2 :: r)), ih (fun c q r => f c (1 / 2 :: q) (1 % 2 :: r)), ih (fun c q r => f c (2 / 2 :: q) (2 % 2 :: r)),
        ih (fun c q r => f c (3 / 2 :: q) (3 % 2 :: r))]
      simp only [Nat.reduceDiv, Nat.reduceMod]
      abel

/-! ## The loop -/

/-- The state of the loop at a type: the legs are axes of size two, one for each classical wire and two for each quantum wire. -/
structure CQInv (st : CQState) (inp : List Leg) (t : List QOb) : Prop where
  hconns : ∀ c ∈ st.net.conns, c.1.node < st.net.nodes.length ∧ c.2.node < st.net.nodes.length
  hinp : ∀ l ∈ inp, l.node < st.net.nodes.length
  hleg : ∀ l ∈ st.c ++ (st.q1 ++ st.q2), LegOK st.net l ∧ st.net.legDim l = 2
  lc : st.c.length = t.count .bit
  l1 : st.q1.length = t.count .qubit
  l2 : st.q2.length = t.count .qubit

/-- The contraction of the state with the open legs at the index `s` of the type. -/
def CQState.V (st : CQState) (inp : List Leg) (x : List Nat) (t : List QOb) (s : List Nat) : ℂ :=
  st.net.P inp x (st.c.zip (cOf t s) ++ (st.q1.zip (qOf t s) ++ st.q2.zip (rOf t s)))

/-- The components of an index. -/
def flat (t : List QOb) (s : List Nat) : List Nat := cOf t s ++ (qOf t s ++ rOf t s)

/-- The legs of the wires next to a box, with their indices. -/
def restOf (left right : List QOb) (cl cr pl pr rl rr : List Leg) (sl sr : List Nat) : List (Leg × Nat) :=
  cl.zip (cOf left sl) ++ (cr.zip (cOf right sr) ++ (pl.zip (qOf left sl) ++ (pr.zip (qOf right sr) ++ (rl.zip (rOf left sl) ++ rr.zip (rOf right sr)))))

theorem V_split (n : Net ℂ) (inp : List Leg) (x : List Nat) (hx : inp.length = x.length) {left m right : List QOb} {sl k sr : List Nat}
    (hl : sl ∈ cqI.idx left) (hk : k ∈ cqI.idx m) (cl cm cr pl pm pr rl rm rr : List Leg) (h1 : cl.length = left.count .bit) (h2 : cm.length = m.count .bit)
    (h3 : pl.length = left.count .qubit) (h4 : pm.length = m.count .qubit) (h5 : rl.length = left.count .qubit) (h6 : rm.length = m.count .qubit) :
    CQState.V ⟨n, cl ++ cm ++ cr, pl ++ pm ++ pr, rl ++ rm ++ rr⟩ inp x (left ++ m ++ right) (sl ++ (k ++ sr)) =
      n.P inp x ((cm ++ (pm ++ rm)).zip (flat m k) ++ restOf left right cl cr pl pr rl rr sl sr) := by
  obtain ⟨a1, a2, a3⟩ := of_append (t := left) (t' := m ++ right) (s := sl) (s' := k ++ sr) (cqI.length_of_mem hl)
  obtain ⟨b1, b2, b3⟩ := of_append (t := m) (t' := right) (s := k) (s' := sr) (cqI.length_of_mem hk)
  obtain ⟨c1, c2, c3⟩ := bits_of hl
  obtain ⟨d1, d2, d3⟩ := bits_of hk
  unfold CQState.V flat restOf
  simp only [List.append_assoc, a1, a2, a3, b1, b2, b3]
  rw [zip_append' (h1.trans c1.1.symm), zip_append' (h2.trans d1.1.symm), zip_append' (h3.trans c2.1.symm), zip_append' (h4.trans d2.1.symm),
    zip_append' (h5.trans c3.1.symm), zip_append' (h6.trans d3.1.symm), zip_append' (h2.trans d1.1.symm), zip_append' (h4.trans d2.1.symm)]
  refine Net.P_congr inp x hx (fun _ => Iff.rfl) (fun e => ?_)
  simp only [List.mem_append]
  tauto

/-- The parts of the state at a layer. -/
theorem CQInv.split {st : CQState} {inp : List Leg} {left m right : List QOb} (h : CQInv st inp (left ++ m ++ right)) :
    ∃ cl cm cr pl pm pr rl rm rr, st = ⟨st.net, cl ++ cm ++ cr, pl ++ pm ++ pr, rl ++ rm ++ rr⟩ ∧
      cl.length = left.count .bit ∧ cm.length = m.count .bit ∧ cr.length = right.count .bit ∧
      pl.length = left.count .qubit ∧ pm.length = m.count .qubit ∧ pr.length = right.count .qubit ∧
      rl.length = left.count .qubit ∧ rm.length = m.count .qubit ∧ rr.length = right.count .qubit := by
  obtain ⟨cl, cm, cr, e1, h1, h2, h3⟩ := TnCat.split3 st.c (left.count .bit) (m.count .bit) (right.count .bit) (by rw [h.lc]; simp; omega)
  obtain ⟨pl, pm, pr, e2, h4, h5, h6⟩ := TnCat.split3 st.q1 (left.count .qubit) (m.count .qubit) (right.count .qubit) (by rw [h.l1]; simp; omega)
  obtain ⟨rl, rm, rr, e3, h7, h8, h9⟩ := TnCat.split3 st.q2 (left.count .qubit) (m.count .qubit) (right.count .qubit) (by rw [h.l2]; simp; omega)
  refine ⟨cl, cm, cr, pl, pm, pr, rl, rm, rr, ?_, h1, h2, h3, h4, h5, h6, h7, h8, h9⟩
  cases st
  simp_all

theorem swapLegs_ok (l r : List Leg) (a b : Leg) {k : Nat} (h : l.length = k) : swapLegs (l ++ [a, b] ++ r) k = .ok (l ++ [b, a] ++ r) := by
  subst h
  unfold swapLegs
  rw [show (l ++ [a, b] ++ r)[l.length]? = some a by simp, show (l ++ [a, b] ++ r)[l.length + 1]? = some b by simp]
  simp only [Except.ok.injEq]
  rw [List.append_assoc, List.set_append_right _ _ (le_refl _), List.set_append_right _ _ (Nat.le_succ _)]
  simp

theorem getLegs_ok (l m r : List Leg) {k n : Nat} (h : l.length = k) (h' : m.length = n) : getLegs (l ++ m ++ r) k n = .ok m := by
  subst h; subst h'
  unfold getLegs
  rw [if_pos (by simp), List.append_assoc, List.drop_left' rfl, List.take_left' rfl]

theorem take_split {α : Type} (l m r : List α) {k n : Nat} (h : l.length = k) (h' : m.length = n) :
    (l ++ m ++ r).take k = l ∧ (l ++ m ++ r).drop (k + n) = r := by
  refine ⟨?_, List.drop_left' (by simp [h, h'])⟩
  rw [List.append_assoc]; exact List.take_left' h

/-- A sum against a swap has one term. -/
theorem sum_swap (p q : QOb) (g : List Nat → ℂ) {so : List Nat} (h : so ∈ cqI.idx [q, p]) :
    ∑ k ∈ cqI.idx [p, q], g k * cqI.ten (swap p q) k so = g so.reverse := by
  obtain ⟨a, s, rfl, ha, hs⟩ := idx_cons h
  obtain ⟨b, s, rfl, hb, hs⟩ := idx_cons hs
  have : s = [] := by simpa [Interp.idx] using hs
  subst this
  rw [Finset.sum_eq_single [b, a]]
  · show g [b, a] * (if [a, b] = [b, a].reverse then 1 else 0) = _
    simp
  · intro k hk hne
    show g k * (if [a, b] = k.reverse then 1 else 0) = _
    rw [if_neg, mul_zero]
    intro e
    apply hne
    rw [← List.reverse_reverse k, ← e]; rfl
  · intro hn
    exact absurd ((cqI.mem_idx _ _).2 (.cons hb (.cons ha .nil))) hn

end
end QBox
end Lambeq
