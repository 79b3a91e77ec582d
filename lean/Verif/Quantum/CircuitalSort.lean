import Verif.Quantum.CircuitalLoop

/-!
# Conversion to circuital form: the order of the post-selections (C84)
-/

namespace Lambeq
open Diagram
set_option linter.unusedSectionVars false
set_option linter.unusedSimpArgs false

namespace QBox
noncomputable section

/-- The type of the wire with label `i`. -/
def tyAt (T : List QOb) (i : Nat) : QOb := T.getD i .qubit

/-- A sequence of post-selections on wires with labels: `w` are the labels of the wires before and `w'` those after. -/
inductive Rem (T : List QOb) : List Nat → List (Nat × Layer QOb QBox) → List Nat → Prop
  | nil (w) : Rem T w [] w
  | cons {A B : List Nat} {k : Nat} {b : QBox} {m w'} : b.dom = [.qubit] → b.cod = [] → tyAt T k = .qubit → Rem T (A ++ B) m w' →
      Rem T (A ++ k :: B) ((k, ⟨A.map (tyAt T), b, B.map (tyAt T)⟩) :: m) w'

theorem Rem.chain {T : List QOb} {w m w'} (h : Rem T w m w') : Chain (w.map (tyAt T)) (m.map Prod.snd) (w'.map (tyAt T)) := by
  induction h with
  | nil w => rfl
  | @cons A B k b m w' hd hc hk _ ih =>
    refine ⟨?_, ?_⟩
    · show A.map (tyAt T) ++ b.dom ++ B.map (tyAt T) = _
      rw [hd]; simp [hk]
    · have : (⟨A.map (tyAt T), b, B.map (tyAt T)⟩ : Layer QOb QBox).cod = (A ++ B).map (tyAt T) := by
        show A.map (tyAt T) ++ b.cod ++ B.map (tyAt T) = _
        rw [hc]; simp
      show Chain (Layer.cod _) _ _
      rw [this]; exact ih

theorem append_eq_append_len {α : Type} {a b c d : List α} (h : a.length = c.length) : a ++ b = c ++ d ↔ a = c ∧ b = d :=
  ⟨fun e => List.append_inj e h, fun e => by rw [e.1, e.2]⟩

theorem idx_getD_lt {x : List Nat} {T : List QOb} (h : List.Forall₂ (fun o v => v < cqI.dim o) T x) : ∀ k, x.getD k 0 < 4 := by
  induction h with
  | nil => intro k; simp
  | @cons o v _ _ h1 _ ih =>
    intro k
    cases k with
    | zero => exact Nat.lt_of_lt_of_le h1 (by cases o <;> decide)
    | succ k => simpa using ih k

/-- The effect of a sequence of post-selections on a sum of basis states. -/
theorem Rem.run {T : List QOb} {w m w'} (h : Rem T w m w') : ∀ (φ : List Nat → ℂ) (V : List Nat → ℂ),
    (∀ z ∈ cqI.idx (w.map (tyAt T)), V z = ∑ x ∈ cqI.idx T, φ x * (if w.map (fun i => x.getD i 0) = z then 1 else 0)) →
    ∀ y ∈ cqI.idx (w'.map (tyAt T)), cqI.run (m.map Prod.snd) V y =
      ∑ x ∈ cqI.idx T, φ x * (m.map (fun e => endVal e.2.box (x.getD e.1 0))).prod * (if w'.map (fun i => x.getD i 0) = y then 1 else 0) := by
  induction h with
  | nil w => intro φ V hV y hy; simpa [Interp.run] using hV y hy
  | @cons A B k b m w' hd hc hk _ ih =>
    intro φ V hV y hy
    rw [List.map_cons, Interp.run]
    have key : ∀ z ∈ cqI.idx ((A ++ B).map (tyAt T)), cqI.act ⟨A.map (tyAt T), b, B.map (tyAt T)⟩ V z =
        ∑ x ∈ cqI.idx T, φ x * endVal b (x.getD k 0) * (if (A ++ B).map (fun i => x.getD i 0) = z then 1 else 0) := by
      intro z hz
      rw [List.map_append] at hz
      obtain ⟨zl, zr, rfl, m1, m2⟩ := cqI.mem_append hz
      have k1 := cqI.length_of_mem m1
      rw [act_end hd hc V k1]
      have e1 : ∀ s ∈ Finset.range 4, endVal b s * V (zl ++ s :: zr) =
          ∑ x ∈ cqI.idx T, φ x * (endVal b s * (if (A ++ k :: B).map (fun i => x.getD i 0) = zl ++ s :: zr then 1 else 0)) := by
        intro s hs
        have : zl ++ s :: zr ∈ cqI.idx ((A ++ k :: B).map (tyAt T)) := by
          rw [List.map_append, List.map_cons, hk]
          exact cqI.append_mem m1 ((cqI.mem_idx _ _).2 (.cons (Finset.mem_range.1 hs) ((cqI.mem_idx _ _).1 m2)))
        rw [hV _ this, Finset.mul_sum]
        exact Finset.sum_congr rfl (fun x _ => by ring)
      rw [Finset.sum_congr rfl e1, Finset.sum_comm]
      refine Finset.sum_congr rfl (fun x hx => ?_)
      rw [← Finset.mul_sum, mul_assoc]
      congr 1
      have hxk : x.getD k 0 < 4 := by
        exact idx_getD_lt ((cqI.mem_idx _ _).1 hx) k
      have e2 : ∀ s ∈ Finset.range 4, endVal b s * (if (A ++ k :: B).map (fun i => x.getD i 0) = zl ++ s :: zr then (1 : ℂ) else 0) =
          if s = x.getD k 0 then endVal b (x.getD k 0) * (if (A ++ B).map (fun i => x.getD i 0) = zl ++ zr then 1 else 0) else 0 := by
        intro s _
        have hlen : (A.map (fun i => x.getD i 0)).length = zl.length := by rw [k1]; simp
        have hiff : (A ++ k :: B).map (fun i => x.getD i 0) = zl ++ s :: zr ↔ s = x.getD k 0 ∧ (A ++ B).map (fun i => x.getD i 0) = zl ++ zr := by
          rw [List.map_append, List.map_cons, List.map_append, append_eq_append_len hlen, append_eq_append_len hlen, List.cons.injEq]
          constructor
          · rintro ⟨h1, h2, h3⟩; exact ⟨h2.symm, h1, h3⟩
          · rintro ⟨h1, h2, h3⟩; exact ⟨h2, h1.symm, h3⟩
        by_cases hs : s = x.getD k 0
        · rw [if_pos hs]
          rw [if_congr (hiff.trans ⟨fun h => h.2, fun h => ⟨hs, h⟩⟩) rfl rfl, hs]
        · rw [if_neg hs, if_neg (fun h => hs (hiff.1 h).1), mul_zero]
      rw [Finset.sum_congr rfl e2, Finset.sum_ite_eq', if_pos (Finset.mem_range.2 hxk)]
    rw [ih _ _ key y hy]
    refine Finset.sum_congr rfl (fun x _ => ?_)
    rw [List.map_cons, List.prod_cons]
    ring

theorem Rem.filter {T : List QOb} {w m w'} (h : Rem T w m w') (hn : w.Nodup) : w' = w.filter (fun i => decide (i ∉ m.map Prod.fst)) ∧
    (∀ k ∈ m.map Prod.fst, k ∈ w) ∧ (m.map Prod.fst).Nodup ∧ (∀ k ∈ m.map Prod.fst, tyAt T k = .qubit) ∧ (∀ e ∈ m, e.2.box.dom = [.qubit] ∧ e.2.box.cod = []) := by
  induction h with
  | nil w => exact ⟨by simp, by simp, by simp, by simp, by simp⟩
  | @cons A B k b m w' hd hc hk _ ih =>
    have hp : (A ++ k :: B).Perm (k :: (A ++ B)) := List.perm_middle
    have hn' := List.nodup_cons.1 (hp.nodup_iff.1 hn)
    obtain ⟨i1, i2, i3, i4, i5⟩ := ih hn'.2
    have hkm : k ∉ m.map Prod.fst := fun h => hn'.1 (i2 k h)
    have hkA : k ∉ A ∧ k ∉ B := by simpa using hn'.1
    refine ⟨?_, ?_, ?_, ?_, ?_⟩
    · rw [i1, List.map_cons, List.filter_append, List.filter_append, List.filter_cons_of_neg (by simp)]
      congr 1
      · refine List.filter_congr (fun i hi => ?_)
        have : i ≠ k := fun h => hkA.1 (h ▸ hi)
        simp [this]
      · refine List.filter_congr (fun i hi => ?_)
        have : i ≠ k := fun h => hkA.2 (h ▸ hi)
        simp [this]
    · intro j hj
      rcases List.mem_cons.1 hj with rfl | hj
      · simp
      · exact hp.mem_iff.2 (List.mem_cons_of_mem _ (i2 j hj))
    · exact List.nodup_cons.2 ⟨hkm, i3⟩
    · intro j hj
      rcases List.mem_cons.1 hj with rfl | hj
      · exact hk
      · exact i4 j hj
    · intro e he
      rcases List.mem_cons.1 he with rfl | he
      · exact ⟨hd, hc⟩
      · exact i5 e he

/-- The loop of `construct_measurements` finds the wires of the post-selections. -/
theorem assign_spec {T : List QOb} {post : List (Layer QOb QBox)} {w : List Nat} (hn : w.Nodup) {c : List QOb} (hc : Chain (w.map (tyAt T)) post c) (hp : ∀ l ∈ post, PostLayer l) :
    ∃ w' m, assign w post = .ok (w', m) ∧ Rem T w m w' ∧ m.map Prod.snd = post ∧ c = w'.map (tyAt T) := by
  induction post generalizing w with
  | nil => exact ⟨w, [], rfl, .nil w, rfl, hc.symm⟩
  | cons l post ih =>
    obtain ⟨L, b, R⟩ := l
    obtain ⟨hd, hc⟩ := hc
    obtain ⟨hbd, hbc⟩ := (hp _ (List.mem_cons_self)).sig
    change b.dom = _ at hbd
    change b.cod = _ at hbc
    have hd : L ++ b.dom ++ R = w.map (tyAt T) := hd
    rw [hbd, List.append_assoc] at hd
    obtain ⟨A, w2, rfl, hA, hw2⟩ := List.map_eq_append_iff.1 hd.symm
    obtain ⟨k, B, rfl, hk, hB⟩ := List.map_eq_cons_iff.1 hw2
    have hB : B.map (tyAt T) = R := hB
    subst hA hB
    have hget : (A ++ k :: B)[(A.map (tyAt T)).length]? = some k := by simp
    have hkA : k ∉ A := by
      have := (List.perm_middle (a := k) (l₁ := A) (l₂ := B)).nodup_iff.1 hn
      have := (List.nodup_cons.1 this).1
      simp at this; exact this.1
    have her : (A ++ k :: B).erase k = A ++ B := by
      rw [List.erase_append_right _ hkA, List.erase_cons_head]
    have hn2 : (A ++ B).Nodup := by rw [← her]; exact hn.erase k
    have hcod : (⟨A.map (tyAt T), b, B.map (tyAt T)⟩ : Layer QOb QBox).cod = (A ++ B).map (tyAt T) := by
      show A.map (tyAt T) ++ b.cod ++ B.map (tyAt T) = _
      rw [hbc]; simp
    have hc : Chain ((A ++ B).map (tyAt T)) post c := hcod ▸ hc
    obtain ⟨w', m, e1, e2, e3, e4⟩ := ih hn2 hc (fun l hl => hp l (List.mem_cons_of_mem _ hl))
    refine ⟨w', (k, ⟨A.map (tyAt T), b, B.map (tyAt T)⟩) :: m, ?_, .cons hbd hbc hk e2, by rw [List.map_cons, e3], e4⟩
    unfold assign
    simp only [hget, her, e1]

/-- The new layer of a post-selection, quantum.py:1309-1311. -/
def rebuild (T : List QOb) (w : List Nat) (e : Nat × Layer QOb QBox) : Layer QOb QBox :=
  ⟨List.replicate (w.countP (fun i => decide (i < e.1))) .bit, e.2.box, T.drop (e.1 + 1)⟩

/-- The post-selections in the order of their wires. -/
theorem rem_rebuild {T : List QOb} {W : List Nat} (hW : ∀ i ∈ W, tyAt T i = .bit) : ∀ (m : List (Nat × Layer QOb QBox)) (A : List Nat) (a : Nat),
    m.Pairwise (fun e e' => e.1 < e'.1) → a ≤ T.length → (∀ i ∈ A, i < a) → (∀ e ∈ m, a ≤ e.1 ∧ e.1 < T.length ∧ tyAt T e.1 = .qubit ∧ e.2.box.dom = [.qubit] ∧ e.2.box.cod = []) →
    W = A ++ (List.range' a (T.length - a)).filter (fun i => decide (i ∉ m.map Prod.fst)) →
    Rem T (A ++ List.range' a (T.length - a)) (m.map (fun e => (e.1, rebuild T W e))) W := by
  intro m
  induction m with
  | nil =>
    intro A a _ _ _ _ hw
    rw [hw]
    have : (List.range' a (T.length - a)).filter (fun i => decide (i ∉ ([] : List (Nat × Layer QOb QBox)).map Prod.fst)) = List.range' a (T.length - a) := by
      apply List.filter_eq_self.2; simp
    rw [this]; exact .nil _
  | cons e m ih =>
    intro A a hs ha hA hm hw
    obtain ⟨k, l⟩ := e
    obtain ⟨h1, h2, h3, h4, h5⟩ := hm (k, l) (by simp)
    change a ≤ k at h1
    change k < T.length at h2
    have hs' := List.pairwise_cons.1 hs
    have hsplit : List.range' a (T.length - a) = List.range' a (k - a) ++ k :: List.range' (k + 1) (T.length - (k + 1)) := by
      have := List.range'_append_1 (s := a) (m := k - a) (n := T.length - (k + 1) + 1)
      rw [show a + (k - a) = k by omega, List.range'_succ, show k - a + (T.length - (k + 1) + 1) = T.length - a by omega] at this
      exact this.symm
    have hlow : ∀ i ∈ List.range' a (k - a), i ∉ ((k, l) :: m).map Prod.fst := by
      intro i hi hmem
      have hi := List.mem_range'_1.1 hi
      rcases List.mem_cons.1 hmem with rfl | hmem
      · omega
      · obtain ⟨e, he, rfl⟩ := List.mem_map.1 hmem
        have := hs'.1 e he
        simp only at this
        omega
    have hhigh : ∀ i ∈ List.range' (k + 1) (T.length - (k + 1)), decide (i ∉ ((k, l) :: m).map Prod.fst) = decide (i ∉ m.map Prod.fst) := by
      intro i hi
      have hi := List.mem_range'_1.1 hi
      have : i ≠ k := by omega
      simp [this]
    have hw2 : W = (A ++ List.range' a (k - a)) ++ (List.range' (k + 1) (T.length - (k + 1))).filter (fun i => decide (i ∉ m.map Prod.fst)) := by
      rw [hw, hsplit, List.filter_append, List.filter_cons_of_neg (by simp), List.append_assoc, List.filter_congr hhigh]
      congr 2
      exact List.filter_eq_self.2 (fun i hi => by simpa using hlow i hi)
    have hAk : ∀ i ∈ A ++ List.range' a (k - a), i < k := by
      intro i hi
      rcases List.mem_append.1 hi with hi | hi
      · have := hA i hi; omega
      · have := List.mem_range'_1.1 hi; omega
    have hrec := ih (A ++ List.range' a (k - a)) (k + 1) hs'.2 (by omega) (fun i hi => by have := hAk i hi; omega) (fun e he => by
      obtain ⟨q1, q2⟩ := hm e (List.mem_cons_of_mem _ he)
      have := hs'.1 e he
      simp only at this
      exact ⟨by omega, q2⟩) hw2
    have hcount : W.countP (fun i => decide (i < k)) = (A ++ List.range' a (k - a)).length := by
      rw [hw2, List.countP_append, List.countP_eq_length.2 (fun i hi => by simpa using hAk i hi), List.countP_eq_zero.2, Nat.add_zero]
      intro i hi
      have := List.mem_range'_1.1 (List.mem_of_mem_filter hi)
      simp; omega
    have hleft : List.replicate (W.countP (fun i => decide (i < k))) QOb.bit = (A ++ List.range' a (k - a)).map (tyAt T) := by
      rw [hcount]
      symm
      refine List.eq_replicate_iff.2 ⟨by simp, ?_⟩
      intro o ho
      obtain ⟨i, hi, rfl⟩ := List.mem_map.1 ho
      exact hW i (by rw [hw2]; exact List.mem_append_left _ hi)
    have hright : T.drop (k + 1) = (List.range' (k + 1) (T.length - (k + 1))).map (tyAt T) := by
      apply List.ext_getElem
      · simp
      · intro i hi1 hi2
        simp only [List.length_drop] at hi1
        simp only [List.getElem_drop, List.getElem_map, List.getElem_range', tyAt, List.getD_eq_getElem?_getD]
        rw [List.getElem?_eq_getElem (by omega)]
        simp
    rw [hsplit, ← List.append_assoc, List.map_cons]
    have : rebuild T W (k, l) = ⟨(A ++ List.range' a (k - a)).map (tyAt T), l.box, (List.range' (k + 1) (T.length - (k + 1))).map (tyAt T)⟩ := by
      unfold rebuild; rw [← hleft, ← hright]
    show Rem T _ ((k, rebuild T W (k, l)) :: _) W
    rw [this]
    exact .cons h4 h5 h3 hrec

/-- `construct_measurements` returns post-selections with the same meaning. -/
theorem construct_spec {last : Layer QOb QBox} {post : List (Layer QOb QBox)} {k : Nat} (hc : Chain last.cod post (List.replicate k QOb.bit)) (hp : ∀ l ∈ post, PostLayer l) :
    ∃ post', constructMeasurements last post = .ok post' ∧ Chain last.cod post' (List.replicate k QOb.bit) ∧ (∀ l ∈ post', PostLayer l) ∧
      (∀ (V : List Nat → ℂ), ∀ y ∈ cqI.idx (List.replicate k QOb.bit), cqI.run post' V y = cqI.run post V y) ∧ post'.length = post.length := by
  generalize hT : last.cod = T at hc
  have hrange : (List.range T.length).map (tyAt T) = T := by
    apply List.ext_getElem
    · simp
    · intro i h1 h2
      simp [tyAt, List.getD_eq_getElem?_getD, h2]
  rw [← hrange] at hc
  obtain ⟨w', m, e1, e2, e3, e4⟩ := assign_spec List.nodup_range hc hp
  obtain ⟨f1, f2, f3, f4, f5⟩ := e2.filter List.nodup_range
  have hperm := List.perm_insertionSort (fun (a b : Nat × Layer QOb QBox) => a.1 ≤ b.1) m
  have hsorted : (m.insertionSort (fun a b => a.1 ≤ b.1)).Pairwise (fun e e' => e.1 < e'.1) := by
    have h1 : (m.insertionSort (fun a b => a.1 ≤ b.1)).Pairwise (fun e e' => e.1 ≤ e'.1) := by
      have : Std.Total (fun (a b : Nat × Layer QOb QBox) => a.1 ≤ b.1) := ⟨fun a b => Nat.le_total a.1 b.1⟩
      have : IsTrans (Nat × Layer QOb QBox) (fun a b => a.1 ≤ b.1) := ⟨fun a b c h1 h2 => Nat.le_trans h1 h2⟩
      exact List.pairwise_insertionSort _ _
    have h2 : ((m.insertionSort (fun a b => a.1 ≤ b.1)).map Prod.fst).Nodup := (hperm.map Prod.fst).nodup_iff.2 f3
    have h3 : (m.insertionSort (fun a b => a.1 ≤ b.1)).Pairwise (fun e e' => e.1 ≠ e'.1) := List.pairwise_map.1 h2
    exact (h1.and h3).imp (fun h => Nat.lt_of_le_of_ne h.1 h.2)
  have hbit : ∀ i ∈ w', tyAt T i = .bit := by
    intro i hi
    have : tyAt T i ∈ List.replicate k QOb.bit := by rw [e4]; exact List.mem_map.2 ⟨i, hi, rfl⟩
    exact (List.mem_replicate.1 this).2
  have hkeys : ∀ i, i ∈ (m.insertionSort (fun a b => a.1 ≤ b.1)).map Prod.fst ↔ i ∈ m.map Prod.fst := fun i => (hperm.map Prod.fst).mem_iff
  have hrem := rem_rebuild (T := T) (W := w') hbit (m.insertionSort (fun a b => a.1 ≤ b.1)) [] 0 hsorted (Nat.zero_le _) (by simp) (by
      intro e he
      have he' := hperm.mem_iff.1 he
      have hk : e.1 ∈ m.map Prod.fst := List.mem_map.2 ⟨e, he', rfl⟩
      exact ⟨Nat.zero_le _, List.mem_range.1 (f2 _ hk), f4 _ hk, f5 e he'⟩) (by
      rw [f1, List.nil_append, Nat.sub_zero, ← List.range_eq_range']
      refine List.filter_congr (fun i _ => ?_)
      rw [decide_eq_decide]
      exact not_congr (hkeys i).symm)
  rw [List.nil_append, Nat.sub_zero, ← List.range_eq_range'] at hrem
  refine ⟨(m.insertionSort (fun a b => a.1 ≤ b.1)).map (rebuild T w'), ?_, ?_, ?_, ?_, ?_⟩
  · unfold constructMeasurements
    rw [hT]
    simp only [e1]
    rfl
  · have := hrem.chain
    rw [hrange, List.map_map, ← e4] at this
    exact this
  · intro l hl
    obtain ⟨e, he, rfl⟩ := List.mem_map.1 hl
    have : e.2 ∈ post := by rw [← e3]; exact List.mem_map.2 ⟨e, hperm.mem_iff.1 he, rfl⟩
    have h := hp _ this
    exact h
  · intro V y hy
    have hV : ∀ z ∈ cqI.idx ((List.range T.length).map (tyAt T)), V z = ∑ x ∈ cqI.idx T, V x * (if (List.range T.length).map (fun i => x.getD i 0) = z then 1 else 0) := by
      intro z hz
      rw [hrange] at hz
      rw [cqI.expand T V hz]
      refine Finset.sum_congr rfl (fun x hx => ?_)
      have hx2 : (List.range T.length).map (fun i => x.getD i 0) = x := by
        have hl := cqI.length_of_mem hx
        apply List.ext_getElem
        · simp [hl]
        · intro i h1 h2
          simp [List.getD_eq_getElem?_getD, h2]
      rw [hx2]
      congr 1
      exact if_congr eq_comm rfl rfl
    have r1 := hrem.run V V hV y (by rw [← e4]; exact hy)
    have r2 := e2.run V V hV y (by rw [← e4]; exact hy)
    rw [List.map_map] at r1
    rw [e3] at r2
    refine (show cqI.run ((m.insertionSort (fun a b => a.1 ≤ b.1)).map (rebuild T w')) V y = _ from r1).trans (Eq.trans ?_ r2.symm)
    refine Finset.sum_congr rfl (fun x _ => ?_)
    congr 2
    rw [List.map_map]
    exact (hperm.map (fun e => endVal e.2.box (x.getD e.1 0))).prod_eq
  · rw [List.length_map, hperm.length_eq, ← e3, List.length_map]

end
end QBox
end Lambeq
