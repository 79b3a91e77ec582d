import Verif.Quantum.Controlled
import Verif.Tensor.CategoryProps

/-!
# Evaluation of pure circuits

The value of a pure circuit (quantum.py:485-486 calls the `to_tn` of the tensor category), and the arrays of controlled gates.
-/

namespace Lambeq
open Diagram
set_option linter.unusedSectionVars false
set_option linter.unusedSimpArgs false

namespace TnCat
variable {O B R : Type} [BoxSig B O] [DecidableEq O] [CommSemiring R] [Inhabited R]

theorem expandLoop_congr {C D : TnCat O B R} (h : C.decompose = D.decompose) (acc : Diagram O B) (ls : List (Layer O B)) :
    C.expandLoop acc ls = D.expandLoop acc ls := by
  induction ls generalizing acc with
  | nil => rfl
  | cons l ls ih =>
    simp only [expandLoop, h]
    split
    · rfl
    · exact ih _

theorem stepLoop_congr {C D : TnCat O B R} (hk : C.kind = D.kind) (st : Net R × List Leg) (ls : List (Layer O B))
    (ha : ∀ l ∈ ls, C.kind l.box = .other → C.array l.box = D.array l.box) : C.stepLoop st ls = D.stepLoop st ls := by
  induction ls generalizing st with
  | nil => rfl
  | cons l ls ih =>
    have hs : C.step st l = D.step st l := by
      unfold step
      have := ha l (by simp)
      rw [← hk]
      cases hkl : C.kind l.box with
      | other => rw [this hkl]
      | swap => rfl
      | cup => rfl
    simp only [stepLoop, hs]
    split
    · rfl
    · exact ih _ (fun m hm => ha m (List.mem_cons_of_mem _ hm))

/-- Evaluation depends only on the arrays of the boxes that occur after the decomposition. -/
theorem eval_congr {C D : TnCat O B R} (hd : C.dim = D.dim) (hk : C.kind = D.kind) (hdec : C.decompose = D.decompose) (d : Diagram O B)
    (hw : d.WT) (ht : ∀ l ∈ d.layers, C.DecTyped l.box)
    (ha : ∀ l ∈ d.layers, ∀ b ∈ ((C.decompose l.box).getD (ofBox l.box)).boxes, C.kind b = .other → C.array b = D.array b) :
    C.eval d = D.eval d := by
  obtain ⟨diag, g1, g2, g3, g4, g5, g6⟩ := C.expandLoop_spec d.layers (Diagram.id d.dom) d.cod rfl hw ht
  have e : C.toTn d = D.toTn d := by
    simp only [toTn, ← expandLoop_congr hdec, g1, hd]
    rw [stepLoop_congr hk]
    intro l hl
    have hb : l.box ∈ diag.boxes := List.mem_map.2 ⟨l, hl, rfl⟩
    rw [g5] at hb
    simp only [Diagram.boxes, Diagram.id, List.map_nil, List.nil_append, List.mem_flatten, List.mem_map] at hb
    obtain ⟨bs, ⟨m, hm, rfl⟩, hb⟩ := hb
    exact ha m hm l.box (by simpa [Diagram.boxes] using hb)
  simp only [eval, e]

end TnCat

namespace QBox
noncomputable section

/-- The boxes with a well-formed array: plain boxes whose data fits their type, the gates of the module, and what `Controlled` and `Daggered` make of
them. -/
def Good : QBox → Prop
  | gen n d c a z _ _ => (TBox.gen n (qDims d) (qDims c) a z).HasData
  | selfConj n d c a _ => (TBox.gen n (qDims d) (qDims c) a 0).HasData
  | ket _ | bra _ | bit _ | rot _ _ | scalar _ | sqrt _ => True
  | controlled u d => d ≠ 0 ∧ u.Good ∧ u.cod.length = u.dom.length
  | daggered b => b.Good
  | swap _ _ | measure | encode | discard | mixedState => False

/-- A category with the boxes of the quantum category in which swaps are swaps. -/
def Std (C : TnCat QOb QBox ℂ) : Prop := C.dim = (fun _ => 2) ∧ C.kind = kind ∧ C.decompose = decomposeOpt

theorem Std.swaps {C : TnCat QOb QBox ℂ} (h : Std C) : C.interp.Swaps := by
  intro x y i j k l _ _ _ _
  have hk : C.kind (SwapSig.swapBox x y) = .swap := by rw [h.2.1]; rfl
  simp only [TnCat.interp, hk, List.reverse_cons, List.reverse_nil, List.nil_append, List.cons_append, List.cons.injEq, and_true]

theorem Std.dim2 {C : TnCat QOb QBox ℂ} (h : Std C) (o : QOb) : C.interp.dim o = 2 := by
  show C.dim o = 2; rw [h.1]

theorem Std.dec {C : TnCat QOb QBox ℂ} (h : Std C) {u : QBox} {d : Int} (hd : d ≠ 0) : ∃ e, C.decompose (controlled u d) = some e ∧ decompose u d = .ok e := by
  obtain ⟨e, he, _⟩ := decompose_spec u d hd
  exact ⟨e, by rw [h.2.2]; simp only [decomposeOpt, he], he⟩

theorem Std.decTyped {C : TnCat QOb QBox ℂ} (h : Std C) (b : QBox) (hb : ∀ u d, b = controlled u d → d ≠ 0) : C.DecTyped b := by
  intro e he
  rw [h.2.2] at he
  cases b with
  | controlled u d =>
    obtain ⟨e', he', h1, h2, h3, _⟩ := decompose_spec u d (hb u d rfl)
    simp only [decomposeOpt, he', Option.some.injEq] at he
    subst he
    exact ⟨h3, h1, h2⟩
  | _ => simp [decomposeOpt] at he

theorem Std.ready_swap {C : TnCat QOb QBox ℂ} (h : Std C) (x y : QOb) : C.Ready (swap x y) := by
  have hk : C.kind (swap x y) = .swap := by rw [h.2.1]; rfl
  simp only [TnCat.Ready, hk]
  exact ⟨x, y, rfl, rfl⟩

theorem Std.ready {C : TnCat QOb QBox ℂ} (h : Std C) {b : QBox} (hk : kind b = .other) {a : NdArray ℂ} (ha : C.array b = .ok a) (hok : a.OK)
    (hs : a.shape = List.replicate (b.dom.length + b.cod.length) 2) : C.Ready b := by
  have hk' : C.kind b = .other := by rw [h.2.1]; exact hk
  simp only [TnCat.Ready, hk']
  refine ⟨a, ha, hok, ?_⟩
  rw [hs, h.1]
  show _ = List.map (fun _ => 2) (b.dom ++ b.cod)
  simp [List.map_const']

theorem Std.ten {C : TnCat QOb QBox ℂ} (h : Std C) {b : QBox} (hk : kind b = .other) {a : NdArray ℂ} (ha : C.array b = .ok a) (i o : List Nat) :
    C.interp.ten b i o = a.get (i ++ o) := by
  have hk' : C.kind b = .other := by rw [h.2.1]; exact hk
  simp only [TnCat.interp, hk', ha]

theorem oneGate_std (a : Except PyErr (NdArray ℂ)) : Std (oneGate a) := ⟨rfl, rfl, rfl⟩

theorem tnCat_std : Std tnCat := ⟨rfl, rfl, rfl⟩

theorem decompose_one (u : QBox) : decompose u 1 = .ok (ofBox (controlled u 1)) := by simp [decompose]

/-- Evaluating the decomposition of a controlled gate, given an array for the gate at distance one. -/
theorem eval_decompose {C : TnCat QOb QBox ℂ} (h : Std C) (u : QBox) (d : Int) (hd : d ≠ 0) {e : Diagram QOb QBox} (he : decompose u d = .ok e)
    {A : NdArray ℂ} (hA : C.array (controlled u 1) = .ok A) (hok : A.OK) (hs : A.shape = List.replicate (2 * (u.dom.length + 1)) 2) :
    ∃ F, C.eval e = .ok F ∧ ∀ x c s t y c' s' t', t.length = u.dom.length → t'.length = u.dom.length →
        Bits (u.dom.length + d.natAbs) x → Bits (u.dom.length + d.natAbs) y → CtrlSplit d x c s t → CtrlSplit d y c' s' t' →
        F (x ++ y) = if s = s' then A.get ((c :: t) ++ (c' :: t')) else 0 := by
  obtain ⟨e', he', h1, h2, h3, h4, h6⟩ := decompose_spec u d hd
  obtain rfl : e = e' := by rw [he] at he'; exact Except.ok.inj he'
  have hbx : ∀ l ∈ e.layers, l.box = controlled u 1 ∨ l.box = swap .qubit .qubit := fun l hl => h4 l.box (List.mem_map.2 ⟨l, hl, rfl⟩)
  have hdec1 : C.decompose (controlled u 1) = some (ofBox (controlled u 1)) := by
    rw [h.2.2]; simp only [decomposeOpt, decompose_one]
  have hdec2 : C.decompose (swap .qubit .qubit) = none := by rw [h.2.2]; rfl
  have hr1 : C.Ready (controlled u 1) := by
    refine h.ready rfl hA hok ?_
    rw [hs]
    congr 1
    show _ = (qubits _).length + (qubits _).length
    simp [qubits, dom]; omega
  obtain ⟨F, f1, f2⟩ := C.eval_spec h3
    (fun l hl => by
      refine h.decTyped _ (fun v k hv => ?_)
      rcases hbx l hl with hb | hb <;> rw [hb] at hv
      · cases hv; decide
      · cases hv)
    (fun l hl b hb => by
      rcases hbx l hl with hb' | hb' <;> rw [hb'] at hb
      · rw [hdec1] at hb
        simp only [Option.getD_some, boxes, ofBox, List.map_cons, List.map_nil, List.mem_singleton] at hb
        subst hb; exact hr1
      · rw [hdec2] at hb
        simp only [Option.getD_none, boxes, ofBox, List.map_cons, List.map_nil, List.mem_singleton] at hb
        subst hb; exact h.ready_swap _ _)
    (fun l hl e0 he0 x hx y hy => by
      rcases hbx l hl with hb | hb <;> rw [hb] at he0 ⊢
      · rw [hdec1] at he0
        cases he0
        exact C.interp.mat_ofBox _ hx hy
      · rw [hdec2] at he0; cases he0)
  refine ⟨F, f1, fun x c s t y c' s' t' ht ht' hx hy hxs hys => ?_⟩
  have hl : (qubits (u.dom.length + d.natAbs)).length = u.dom.length + d.natAbs := by simp [qubits]
  rw [f2 x ((mem_idxQ h.dim2).2 (by rw [h1]; show Bits (qubits _).length _; rw [← hl] at hx; exact hx)) y
    ((mem_idxQ h.dim2).2 (by rw [h2]; show Bits (qubits _).length _; rw [← hl] at hy; exact hy)),
    h6 _ h.dim2 h.swaps x c s t y c' s' t' ht ht' hx hy hxs hys, h.ten rfl hA]

theorem ctrlSplit_bits {m : Nat} {d : Int} {x : List Nat} {c : Nat} {s t : List Nat} (ht : t.length = m) (hx : Bits (m + d.natAbs) x)
    (h : CtrlSplit d x c s t) : c < 2 ∧ Bits m t := by
  obtain ⟨_, rfl⟩ := h
  refine ⟨hx.2 c ?_, ht, fun b hb => hx.2 b ?_⟩ <;> split <;> simp [*]

theorem ctrlSplit_exists {m : Nat} {d : Int} (hd : d ≠ 0) {x : List Nat} (hx : Bits (m + d.natAbs) x) :
    ∃ c s t, CtrlSplit d x c s t ∧ t.length = m := by
  obtain ⟨k, hk⟩ : ∃ k, d.natAbs = k + 1 := ⟨d.natAbs - 1, by omega⟩
  rw [hk] at hx
  by_cases h : d > 0
  · obtain ⟨c, z, rfl, _, hz⟩ := Bits.uncons (n := m + k) hx
    obtain ⟨s, t, rfl, h1, h2⟩ := Bits.split (n := k) (m := m) (by rwa [Nat.add_comm])
    exact ⟨c, s, t, ⟨by rw [h1.1, hk], by rw [if_pos h]⟩, h2.1⟩
  · obtain ⟨t, z, rfl, h1, hz⟩ := Bits.split hx
    obtain ⟨s, w, rfl, h2, h3⟩ := Bits.split hz
    obtain ⟨c, w', rfl, _, h4⟩ := Bits.uncons (n := 0) h3
    obtain rfl := h4.eq_nil
    exact ⟨c, s, t, ⟨by rw [h2.1, hk], by rw [if_neg h, List.append_assoc]⟩, h1.1⟩

/-- The array of a controlled gate. -/
theorem array_controlled_spec (u : QBox) (d : Int) (hd : d ≠ 0) {a : NdArray ℂ} (ha : u.array = .ok a) (hok : a.OK)
    (hs : a.shape = List.replicate (2 * u.dom.length) 2) :
    ∃ A, (controlled u d).array = .ok A ∧ A.OK ∧ A.shape = List.replicate (2 * (u.dom.length + d.natAbs)) 2 ∧
      ∀ x c s t y c' s' t', t.length = u.dom.length → t'.length = u.dom.length →
        Bits (u.dom.length + d.natAbs) x → Bits (u.dom.length + d.natAbs) y → CtrlSplit d x c s t → CtrlSplit d y c' s' t' →
        A.get (x ++ y) = if s = s' then ctrl (fun x y => a.get (x ++ y)) c t c' t' else 0 := by
  obtain ⟨A1, e1, ok1, s1, g1⟩ := controlledArray_spec u.dom.length a hok hs
  by_cases h1 : d = 1
  · subst h1
    refine ⟨A1, by simp only [array, ha, e1, if_true], ok1, s1, fun x c s t y c' s' t' ht ht' hx hy hxs hys => ?_⟩
    obtain ⟨c2, t2⟩ := ctrlSplit_bits ht hx hxs
    obtain ⟨c2', t2'⟩ := ctrlSplit_bits ht' hy hys
    obtain ⟨l1, rfl⟩ := hxs
    obtain ⟨l2, rfl⟩ := hys
    obtain rfl : s = [] := List.length_eq_zero_iff.1 (by simpa using l1)
    obtain rfl : s' = [] := List.length_eq_zero_iff.1 (by simpa using l2)
    exact g1 c t c' t' c2 c2' t2 t2'
  · obtain ⟨e, he, hdom, hcod, _⟩ := decompose_spec u d hd
    obtain ⟨F, f1, f2⟩ := eval_decompose (oneGate_std (.ok A1)) u d hd he (A := A1) rfl ok1 s1
    have hl : ∀ k, (qubits k).length = k := fun k => by simp [qubits]
    have hdims : qDims e.dom ++ qDims e.cod = List.replicate (2 * (u.dom.length + d.natAbs)) 2 := by
      rw [qDims_eq, qDims_eq, hdom, hcod]
      show List.replicate (qubits _).length 2 ++ List.replicate (qubits _).length 2 = _
      rw [hl, List.replicate_append_replicate]
      congr 1; simp [dom]; omega
    refine ⟨NdArray.ofFn (List.replicate (2 * (u.dom.length + d.natAbs)) 2) F, ?_, NdArray.ofFn_ok _ _, rfl, ?_⟩
    · simp only [array, ha, e1, if_neg h1, he, evalArray, f1, hdims]
      exact NdArray.reshape_self _ (NdArray.ofFn_ok _ _)
    · intro x c s t y c' s' t' ht ht' hx hy hxs hys
      obtain ⟨c2, t2⟩ := ctrlSplit_bits ht hx hxs
      obtain ⟨c2', t2'⟩ := ctrlSplit_bits ht' hy hys
      rw [NdArray.get_ofFn _ _ (by rw [two_mul]; exact (bits_iff _ _).1 (hx.append hy)), f2 x c s t y c' s' t' ht ht' hx hy hxs hys,
        g1 c t c' t' c2 c2' t2 t2']

/-- Model check: the array of a gate controlled at another distance is the value of its decomposition, evaluated in the category of all boxes as
quantum.py:1009 does. -/
theorem array_controlled (u : QBox) (d : Int) (hd : d ≠ 0) (h1 : d ≠ 1) :
    (controlled u d).array = match decompose u d with
      | .error e => .error e
      | .ok e => match evalArray tnCat e with
        | .error e => .error e
        | .ok a => a.reshape (List.replicate (2 * (u.dom.length + d.natAbs)) 2) := by
  obtain ⟨e, he, hdom, hcod, hw, hb, _⟩ := decompose_spec u d hd
  have hbx : ∀ l ∈ e.layers, l.box = controlled u 1 ∨ l.box = swap .qubit .qubit := fun l hl => hb l.box (List.mem_map.2 ⟨l, hl, rfl⟩)
  have key : ∀ one, one = array (controlled u 1) → (oneGate one).eval e = tnCat.eval e := by
    intro one hone
    refine TnCat.eval_congr (C := oneGate one) (D := tnCat) rfl rfl rfl e hw (fun l hl => ?_) (fun l hl b hb hk => ?_)
    · refine (oneGate_std _).decTyped _ (fun v k hv => ?_)
      rcases hbx l hl with hb | hb <;> rw [hb] at hv
      · cases hv; decide
      · cases hv
    · have hb' : b = controlled u 1 ∨ b = swap .qubit .qubit := by
        rcases hbx l hl with h | h <;> rw [h] at hb
        · simp only [oneGate, decomposeOpt, decompose_one, Option.getD_some, boxes, ofBox, List.map_cons, List.map_nil, List.mem_singleton] at hb
          exact .inl hb
        · simp only [oneGate, decomposeOpt, Option.getD_none, boxes, ofBox, List.map_cons, List.map_nil, List.mem_singleton] at hb
          exact .inr hb
      rcases hb' with rfl | rfl
      · exact hone
      · cases hk
  simp only [array, if_neg h1, he, evalArray]
  rw [key _ (by simp only [array, if_true])]
  cases tnCat.eval e <;> rfl

/-- Boxes with a well-formed array. -/
theorem Good.array_ok {b : QBox} (h : b.Good) :
    ∃ a, b.array = .ok a ∧ a.OK ∧ a.shape = List.replicate (b.dom.length + b.cod.length) 2 := by
  have hgen : ∀ n d c (a : Option (NdArray ℂ)) z, (TBox.gen n (qDims d) (qDims c) a z).HasData → ∃ r, TBox.array (.gen n (qDims d) (qDims c) a z) = .ok r ∧ r.OK ∧
      r.shape = List.replicate (d.length + c.length) 2 := by
    intro n d c a z h
    obtain ⟨r, e, ok, hs⟩ := TBox.HasData.array_ok h
    refine ⟨r, e, ok, hs.trans ?_⟩
    show qDims d ++ qDims c = _
    rw [qDims_eq, qDims_eq, List.replicate_append_replicate]
  induction b with
  | gen n d c a z m sa => exact hgen n d c a z h
  | selfConj n d c a sa => exact hgen n d c a 0 h
  | ket b => exact ⟨_, rfl, by cases b <;> rfl, rfl⟩
  | bra b => exact ⟨_, rfl, by cases b <;> rfl, rfl⟩
  | bit b => exact ⟨_, rfl, by cases b <;> rfl, rfl⟩
  | rot ax θ => exact ⟨_, rfl, by cases ax <;> rfl, by cases ax <;> rfl⟩
  | scalar c => exact ⟨_, rfl, rfl, rfl⟩
  | sqrt c => exact ⟨_, rfl, rfl, rfl⟩
  | controlled u d ih =>
    obtain ⟨hd, hu, hsq⟩ := h
    obtain ⟨a, e, ok, hs⟩ := ih hu
    obtain ⟨A, e1, ok1, s1, _⟩ := array_controlled_spec u d hd e ok (by rw [hs, hsq, two_mul])
    refine ⟨A, e1, ok1, s1.trans ?_⟩
    congr 1
    show _ = (qubits _).length + (qubits _).length
    simp [qubits, dom]; omega
  | daggered b ih =>
    obtain ⟨a, e, ok, hs⟩ := ih h
    obtain ⟨r, e', rok, rs, _⟩ := TBox.adjointArray_spec (qDims b.dom) (qDims b.cod) a ok (by
      rw [hs, qDims_eq, qDims_eq, List.replicate_append_replicate])
    refine ⟨r, by simp only [array, e, e'], rok, rs.trans ?_⟩
    rw [qDims_eq, qDims_eq, List.replicate_append_replicate]
    rfl
  | _ => exact h.elim

theorem Good.kind {b : QBox} (h : b.Good) : QBox.kind b = .other := by
  cases b <;> first | rfl | exact h.elim

/-- The decomposition of a controlled gate denotes the array of the gate. -/
theorem dec_sem {u : QBox} {k : Int} (hg : (controlled u k).Good) {e0 : Diagram QOb QBox} (he : decompose u k = .ok e0) :
    ∀ x ∈ tnCat.interp.idx e0.dom, ∀ y ∈ tnCat.interp.idx e0.cod, tnCat.interp.mat e0 x y = tnCat.interp.ten (controlled u k) x y := by
  intro x hx y hy
  have hk := hg.1
  obtain ⟨e1, he1, hdom, hcod, _, hbx, hm⟩ := decompose_spec u k hk
  obtain rfl : e0 = e1 := by rw [he] at he1; exact Except.ok.inj he1
  have hl : ∀ k, (qubits k).length = k := fun k => by simp [qubits]
  have hx' : Bits (u.dom.length + k.natAbs) x := by
    have := (mem_idxQ dim_tn).1 hx
    rw [hdom] at this
    rw [← hl (u.dom.length + k.natAbs)]; exact this
  have hy' : Bits (u.dom.length + k.natAbs) y := by
    have := (mem_idxQ dim_tn).1 hy
    rw [hcod] at this
    rw [← hl (u.dom.length + k.natAbs)]; exact this
  obtain ⟨_, hu, hsq⟩ := hg
  obtain ⟨a, ea, oka, hsa⟩ := hu.array_ok
  have hsa' : a.shape = List.replicate (2 * u.dom.length) 2 := by rw [hsa, hsq, two_mul]
  obtain ⟨A1, ea1, _, _, g1⟩ := array_controlled_spec u 1 (by decide) ea oka hsa'
  obtain ⟨A, eA, _, _, gA⟩ := array_controlled_spec u k hk ea oka hsa'
  obtain ⟨c, s, t, hxs, ht⟩ := ctrlSplit_exists hk hx'
  obtain ⟨c', s', t', hys, ht'⟩ := ctrlSplit_exists hk hy'
  rw [hm _ dim_tn tnCat_std.swaps x c s t y c' s' t' ht ht' hx' hy' hxs hys, tnCat_std.ten (b := controlled u 1) rfl ea1, tnCat_std.ten (b := controlled u k) rfl eA,
    gA x c s t y c' s' t' ht ht' hx' hy' hxs hys]
  by_cases hss : s = s'
  · rw [if_pos hss, if_pos hss]
    have b1 := ctrlSplit_bits ht hx' hxs
    have b2 := ctrlSplit_bits ht' hy' hys
    rw [g1 (c :: t) c [] t (c' :: t') c' [] t' ht ht' (b1.2.cons b1.1) (b2.2.cons b2.1) ⟨rfl, by simp⟩ ⟨rfl, by simp⟩, if_pos rfl]
  · rw [if_neg hss, if_neg hss]

/-- A circuit that can be evaluated without density matrices: well typed, made of swaps and boxes with arrays. -/
structure PureOK (d : Diagram QOb QBox) : Prop where
  wt : d.WT
  boxes : ∀ l ∈ d.layers, l.box.Good ∨ ∃ x y, l.box = swap x y

/-- `d.eval()` of a pure circuit, quantum.py:347-348 and 485-486: the entries as a function of the input and output bits. -/
def pureEval (d : Diagram QOb QBox) : Except PyErr (List Nat → ℂ) := tnCat.eval d

/-- A pure circuit evaluates to the matrix that its boxes' arrays give. -/
theorem pureEval_spec {d : Diagram QOb QBox} (h : PureOK d) :
    ∃ F, pureEval d = .ok F ∧ ∀ x y, Bits d.dom.length x → Bits d.cod.length y → F (x ++ y) = tnCat.interp.mat d x y := by
  have hnz : ∀ l ∈ d.layers, ∀ u k, l.box = controlled u k → k ≠ 0 := by
    intro l hl u k e
    rcases h.boxes l hl with hg | ⟨x, y, e'⟩
    · rw [e] at hg; exact hg.1
    · rw [e] at e'; cases e'
  have none_of : ∀ b : QBox, (∀ u k, b ≠ controlled u k) → decomposeOpt b = none := by
    intro b hb
    cases b with
    | controlled u k => exact absurd rfl (hb u k)
    | _ => rfl
  have hctrl : ∀ u k, (controlled u k).Good → ∃ A1, (controlled u 1).array = .ok A1 ∧ A1.OK ∧ A1.shape = List.replicate (2 * (u.dom.length + 1)) 2 := by
    intro u k hg
    obtain ⟨hk, hu, hsq⟩ := hg
    obtain ⟨a, ea, oka, hsa⟩ := hu.array_ok
    obtain ⟨A1, e1, ok1, s1, g1⟩ := array_controlled_spec u 1 (by decide) ea oka (by rw [hsa, hsq, two_mul])
    exact ⟨A1, e1, ok1, s1⟩
  obtain ⟨F, f1, f2⟩ := tnCat.eval_spec h.wt (fun l hl => tnCat_std.decTyped _ (hnz l hl))
    (fun l hl b hb => by
      by_cases hc : ∃ u k, l.box = controlled u k
      · obtain ⟨u, k, e⟩ := hc
        have hk := hnz l hl u k e
        have hg : (controlled u k).Good := by
          rcases h.boxes l hl with hg | ⟨x, y, e'⟩
          · rwa [e] at hg
          · rw [e] at e'; cases e'
        obtain ⟨e0, he0, hd0⟩ := tnCat_std.dec (u := u) hk
        rw [e, he0] at hb
        obtain ⟨e1, he1, _, _, _, hbx, _⟩ := decompose_spec u k hk
        obtain rfl : e0 = e1 := by rw [hd0] at he1; exact Except.ok.inj he1
        rcases hbx b hb with rfl | rfl
        · obtain ⟨A1, ea, ok1, s1⟩ := hctrl u k hg
          refine tnCat_std.ready rfl ea ok1 (s1.trans ?_)
          congr 1
          show _ = (qubits _).length + (qubits _).length
          simp [qubits, dom]; omega
        · exact tnCat_std.ready_swap _ _
      · have : tnCat.decompose l.box = none := none_of _ (fun u k e => hc ⟨u, k, e⟩)
        rw [this] at hb
        simp only [Option.getD_none, boxes, ofBox, List.map_cons, List.map_nil, List.mem_singleton] at hb
        subst hb
        rcases h.boxes l hl with hg | ⟨x, y, e'⟩
        · obtain ⟨a, ea, oka, hsa⟩ := hg.array_ok
          exact tnCat_std.ready hg.kind ea oka hsa
        · rw [e']; exact tnCat_std.ready_swap _ _)
    (fun l hl e0 he0 x hx y hy => by
      by_cases hc : ∃ u k, l.box = controlled u k
      · obtain ⟨u, k, e⟩ := hc
        have hk := hnz l hl u k e
        have hg : (controlled u k).Good := by
          rcases h.boxes l hl with hg | ⟨x, y, e'⟩
          · rwa [e] at hg
          · rw [e] at e'; cases e'
        rw [e] at he0 ⊢
        obtain ⟨e2, he2, hd2⟩ := tnCat_std.dec (u := u) hk
        obtain rfl : e0 = e2 := by rw [he2] at he0; exact (Option.some.inj he0).symm
        exact dec_sem hg hd2 x hx y hy
      · have : tnCat.decompose l.box = none := none_of _ (fun u k e => hc ⟨u, k, e⟩)
        rw [this] at he0; cases he0)
  exact ⟨F, f1, fun x y hx hy => f2 x ((mem_idxQ dim_tn).2 hx) y ((mem_idxQ dim_tn).2 hy)⟩

end
end QBox
end Lambeq
