import Verif.Quantum.Functorial
import Verif.Tensor.Adjoint

/-!
# Adjoints of circuits (C71)

`dagger` of boxes is in `Quantum/Box.lean`; `Diagram.dagger` is grammar.py:1064-1071.
-/

namespace Lambeq
open Diagram
set_option linter.unusedSectionVars false
set_option linter.unusedSimpArgs false

namespace QBox
noncomputable section

/-- The array of the box is a Hermitian matrix. -/
def Hermitian (b : QBox) : Prop :=
  b.dom.length = b.cod.length ∧ ∀ a, b.array = .ok a → ∀ x y, Bits b.dom.length x → Bits b.dom.length y → a.get (x ++ y) = star (a.get (y ++ x))

/-- What the caller of the constructors promises: boxes flagged `self_adjoint` go from a type to itself and have a Hermitian array. `Sqrt` must not be
given a negative number (see `C71_refuted_sqrt`). -/
def Adj : QBox → Prop
  | gen n d c a z m sa => sa = true → d = c ∧ Hermitian (gen n d c a z m sa)
  | selfConj n d c a sa => sa = true → d = c ∧ Hermitian (selfConj n d c a sa)
  | sqrt c => c.arg ≠ Real.pi
  | controlled u _ => u.Adj
  | daggered b => b.Adj
  | _ => True

theorem bits_qDims {t : List QOb} {x : List Nat} (h : Bits t.length x) : InShape (qDims t) x := by rw [qDims_eq]; exact (bits_iff _ _).1 h

theorem get_daggered {b : QBox} (h : b.Good) {a a' : NdArray ℂ} (ha : b.array = .ok a) (ha' : (daggered b).array = .ok a') :
    ∀ x y, Bits b.dom.length x → Bits b.cod.length y → a'.get (y ++ x) = star (a.get (x ++ y)) := by
  obtain ⟨a0, e, ok, hs⟩ := h.array_ok
  cases e.symm.trans ha
  obtain ⟨r, e', rok, rs, rg⟩ := TBox.adjointArray_spec (qDims b.dom) (qDims b.cod) a ok (by
    rw [hs, qDims_eq, qDims_eq, List.replicate_append_replicate])
  have : (daggered b).array = .ok r := by simp only [array, e, e']
  cases this.symm.trans ha'
  exact fun x y hx hy => rg x y (bits_qDims hx) (bits_qDims hy)

/-- The adjoint of a box has an array, the conjugate transpose. -/
theorem dagger_spec {b : QBox} (hg : b.Good) (hadj : b.Adj) :
    b.dagger.Good ∧ b.dagger.dom = b.cod ∧ b.dagger.cod = b.dom ∧ ∀ a a', b.array = .ok a → b.dagger.array = .ok a' →
      ∀ x y, Bits b.dom.length x → Bits b.cod.length y → a'.get (y ++ x) = star (a.get (x ++ y)) := by
  induction b with
  | gen n d c a z m sa =>
    cases sa with
    | false => exact ⟨hg, rfl, rfl, fun _ _ e e' => get_daggered hg e e'⟩
    | true =>
      obtain ⟨rfl, h1, h2⟩ := hadj rfl
      refine ⟨hg, rfl, rfl, fun a a' e e' x y hx hy => ?_⟩
      cases e.symm.trans e'
      exact h2 a e y x hy hx
  | selfConj n d c a sa =>
    cases sa with
    | false => exact ⟨hg, rfl, rfl, fun _ _ e e' => get_daggered hg e e'⟩
    | true =>
      obtain ⟨rfl, h1, h2⟩ := hadj rfl
      refine ⟨hg, rfl, rfl, fun a a' e e' x y hx hy => ?_⟩
      cases e.symm.trans e'
      exact h2 a e y x hy hx
  | ket b =>
    refine ⟨trivial, rfl, rfl, fun a a' e e' x y hx hy => ?_⟩
    cases e; cases e'
    obtain rfl := hx.eq_nil
    obtain ⟨c, w, rfl, hc, hw⟩ := Bits.uncons (n := 0) hy
    obtain rfl := hw.eq_nil
    cases b <;> interval_cases c <;> simp [NdArray.get, ravel]
  | bra b =>
    refine ⟨trivial, rfl, rfl, fun a a' e e' x y hx hy => ?_⟩
    cases e; cases e'
    obtain rfl := hy.eq_nil
    obtain ⟨c, w, rfl, hc, hw⟩ := Bits.uncons (n := 0) hx
    obtain rfl := hw.eq_nil
    cases b <;> interval_cases c <;> simp [NdArray.get, ravel]
  | bit b => exact ⟨trivial, rfl, rfl, fun _ _ e e' => get_daggered (b := bit b) trivial e e'⟩
  | rot ax θ =>
    refine ⟨trivial, rfl, rfl, fun a a' e e' x y hx hy => ?_⟩
    cases e; cases e'
    obtain ⟨c, w, rfl, hc, hw⟩ := Bits.uncons (n := 0) hx
    obtain rfl := hw.eq_nil
    obtain ⟨c', w', rfl, hc', hw'⟩ := Bits.uncons (n := 0) hy
    obtain rfl := hw'.eq_nil
    have hs : (starRingEnd ℂ) (Complex.sin (Real.pi * θ)) = Complex.sin (Real.pi * θ) := by
      rw [← Complex.sin_conj]; simp
    have hc0 : (starRingEnd ℂ) (Complex.cos (Real.pi * θ)) = Complex.cos (Real.pi * θ) := by
      rw [← Complex.cos_conj]; simp
    have he : ∀ z : ℂ, (starRingEnd ℂ) (Complex.exp z) = Complex.exp ((starRingEnd ℂ) z) := fun z => (Complex.exp_conj z).symm
    cases ax <;> interval_cases c <;> interval_cases c' <;> simp [rotArray, NdArray.get, ravel, hs, hc0, he]
  | controlled u d ih =>
    obtain ⟨hd, hu, hsq⟩ := hg
    obtain ⟨g1, g2, g3, g4⟩ := ih hu hadj
    have hlen : u.dagger.dom.length = u.dom.length := by rw [g2, hsq]
    refine ⟨⟨hd, g1, by rw [g3, g2, hsq]⟩, ?_, ?_, fun A A' e e' x y hx hy => ?_⟩
    · show qubits (u.dagger.dom.length + _) = qubits (u.dom.length + _); rw [hlen]
    · show qubits (u.dagger.dom.length + _) = qubits (u.dom.length + _); rw [hlen]
    · have hx : Bits (u.dom.length + d.natAbs) x := by rw [← qubits_length (u.dom.length + d.natAbs)]; exact hx
      have hy : Bits (u.dom.length + d.natAbs) y := by rw [← qubits_length (u.dom.length + d.natAbs)]; exact hy
      obtain ⟨a, ea, oka, sa⟩ := hu.array_ok
      obtain ⟨a', ea', oka', sa'⟩ := g1.array_ok
      obtain ⟨B, b1, _, _, b4⟩ := array_controlled_spec u d hd ea oka (by rw [sa, hsq, two_mul])
      obtain ⟨B', b1', _, _, b4'⟩ := array_controlled_spec u.dagger d hd ea' oka' (by rw [sa', g3, hlen, two_mul])
      cases e.symm.trans b1
      have e' : (controlled u.dagger d).array = .ok A' := e'
      cases e'.symm.trans b1'
      obtain ⟨c, s, t, hs, ht⟩ := ctrlSplit_exists hd hx
      obtain ⟨c', s', t', hs', ht'⟩ := ctrlSplit_exists hd hy
      have k1 := ctrlSplit_bits ht hx hs
      have k2 := ctrlSplit_bits ht' hy hs'
      rw [b4' y c' s' t' x c s t (by rw [hlen, ht']) (by rw [hlen, ht]) (by rw [hlen]; exact hy) (by rw [hlen]; exact hx) hs' hs,
        b4 x c s t y c' s' t' ht ht' hx hy hs hs']
      by_cases es : s = s'
      · rw [if_pos es, if_pos es.symm]
        unfold ctrl
        by_cases ec : c = c'
        · subst ec
          rw [if_pos rfl, if_pos rfl]
          by_cases h1 : c = 1
          · rw [if_pos h1, if_pos h1]; exact g4 a a' ea ea' t t' k1.2 (hsq ▸ k2.2)
          · rw [if_neg h1, if_neg h1]
            by_cases et : t = t'
            · rw [if_pos et, if_pos et.symm, star_one]
            · rw [if_neg et, if_neg (Ne.symm et), star_zero]
        · rw [if_neg ec, if_neg (Ne.symm ec), star_zero]
      · rw [if_neg es, if_neg (Ne.symm es), star_zero]
  | scalar c =>
    refine ⟨trivial, rfl, rfl, fun a a' e e' x y hx hy => ?_⟩
    cases e; cases e'
    obtain rfl := hx.eq_nil; obtain rfl := hy.eq_nil
    simp [NdArray.get, ravel]
  | sqrt c =>
    refine ⟨trivial, rfl, rfl, fun a a' e e' x y hx hy => ?_⟩
    cases e; cases e'
    obtain rfl := hx.eq_nil; obtain rfl := hy.eq_nil
    have h := Complex.conj_cpow c (1 / 2 : ℂ) hadj
    have h2 : (starRingEnd ℂ) (1 / 2 : ℂ) = 1 / 2 := by
      rw [map_div₀, map_one]; congr 1; exact Complex.conj_ofNat 2
    rw [h2] at h
    simp only [NdArray.get, ravel, List.append_nil]
    exact h
  | daggered b ih =>
    have hg : b.Good := hg
    refine ⟨hg, rfl, rfl, fun a a' e e' x y hx hy => ?_⟩
    rw [get_daggered hg e' e y x hy hx, star_star]
  | _ => exact hg.elim

/-- A pure circuit whose boxes keep the promises of their flags. -/
structure AdjOK (d : Diagram QOb QBox) : Prop extends PureOK d where
  adj : ∀ l ∈ d.layers, l.box.Adj

/-- `circuit.dagger()` -/
def ddagger (d : Diagram QOb QBox) : Diagram QOb QBox := Diagram.daggerWith dagger d

theorem dagger_sig {b : QBox} (h : b.Good ∨ ∃ x y, b = swap x y) (ha : b.Adj) : b.dagger.dom = b.cod ∧ b.dagger.cod = b.dom := by
  rcases h with h | ⟨x, y, rfl⟩
  · exact ⟨(dagger_spec h ha).2.1, (dagger_spec h ha).2.2.1⟩
  · exact ⟨rfl, rfl⟩

theorem ten_dagger {b : QBox} (h : b.Good ∨ ∃ x y, b = swap x y) (ha : b.Adj) {i o : List Nat} (hi : Bits b.dom.length i) (ho : Bits b.cod.length o) :
    tnCat.interp.ten b.dagger o i = star (tnCat.interp.ten b i o) := by
  rcases h with h | ⟨x, y, rfl⟩
  · obtain ⟨g1, g2, g3, g4⟩ := dagger_spec h ha
    obtain ⟨a, ea, _⟩ := h.array_ok
    obtain ⟨a', ea', _⟩ := g1.array_ok
    rw [tnCat_std.ten h.kind ea, tnCat_std.ten g1.kind ea', g4 a a' ea ea' i o hi ho]
  · show (if i = o.reverse then (1 : ℂ) else 0) = star (if o = i.reverse then (1 : ℂ) else 0)
    by_cases e : o = i.reverse
    · rw [if_pos e, if_pos (by rw [e, List.reverse_reverse]), star_one]
    · rw [if_neg e, if_neg (fun h => e (by rw [h, List.reverse_reverse])), star_zero]

theorem Adj.dagger {b : QBox} (h : b.Adj) : b.dagger.Adj := by
  induction b with
  | gen n d c a z m sa => cases sa <;> simpa [QBox.dagger, Adj] using h
  | selfConj n d c a sa => cases sa <;> simpa [QBox.dagger, Adj] using h
  | sqrt c =>
    show (star c).arg ≠ Real.pi
    have : (star c).arg = if c.arg = Real.pi then Real.pi else -c.arg := Complex.arg_conj c
    rw [this, if_neg h]
    intro e
    have := Complex.neg_pi_lt_arg c
    linarith
  | controlled u d ih => exact ih h
  | daggered b ih => exact h
  | _ => trivial

theorem ddagger_eq {d : Diagram QOb QBox} (h : d.WT) : ddagger d = ⟨d.cod, d.dom, d.layers.reverse.map (fun l => { l with box := l.box.dagger })⟩ := by
  unfold ddagger daggerWith
  cases hl : d.layers with
  | nil =>
    have : d.dom = d.cod := by have := h; rw [Diagram.WT, hl] at this; exact this
    cases d; simp_all
  | cons a t => simp

theorem AdjOK.ddagger {d : Diagram QOb QBox} (h : AdjOK d) : AdjOK (ddagger d) := by
  rw [ddagger_eq h.wt]
  refine ⟨⟨chain_dagger_on QBox.dagger (fun l hl => dagger_sig (h.boxes l hl) (h.adj l hl)) h.wt, fun l hl => ?_⟩, fun l hl => ?_⟩
  · obtain ⟨l', hl', rfl⟩ := List.mem_map.1 hl
    have hl' := List.mem_reverse.1 hl'
    rcases h.boxes l' hl' with hb | ⟨x, y, e⟩
    · exact .inl (dagger_spec hb (h.adj l' hl')).1
    · exact .inr ⟨y, x, by show l'.box.dagger = _; rw [e]; rfl⟩
  · obtain ⟨l', hl', rfl⟩ := List.mem_map.1 hl
    exact (h.adj l' (List.mem_reverse.1 hl')).dagger

theorem AdjOK.mat_ddagger {d : Diagram QOb QBox} (h : AdjOK d) {x y : List Nat} (hx : Bits d.dom.length x) (hy : Bits d.cod.length y) :
    tnCat.interp.mat (QBox.ddagger d) y x = star (tnCat.interp.mat d x y) := by
  rw [ddagger_eq h.wt]
  exact tnCat.interp.run_dagger_on QBox.dagger (fun l hl => dagger_sig (h.boxes l hl) (h.adj l hl)) h.wt
    (fun l hl i hi o ho => ten_dagger (h.boxes l hl) (h.adj l hl) ((mem_idxQ dim_tn).1 hi) ((mem_idxQ dim_tn).1 ho))
    ((mem_idxQ dim_tn).2 hx) ((mem_idxQ dim_tn).2 hy)

theorem Den.ddagger {d : Diagram QOb QBox} {a c : List QOb} {M : List Nat → List Nat → ℂ} (h : Den d a c M) (ha : ∀ l ∈ d.layers, l.box.Adj) :
    Den (QBox.ddagger d) c a (fun y x => star (M x y)) := by
  have hA : AdjOK d := ⟨h.pure, ha⟩
  have e := ddagger_eq h.pure.wt
  exact ⟨hA.ddagger.toPureOK, by rw [e]; exact h.cod, by rw [e]; exact h.dom, fun y x hy hx => by
    rw [hA.mat_ddagger (h.dom ▸ hx) (h.cod ▸ hy), h.val x y hx hy]⟩

/-- **C71.** The adjoint of a circuit evaluates to the conjugate transpose. -/
theorem C71_dagger_partial {d : Diagram QOb QBox} (h : AdjOK d) :
    AdjOK (ddagger d) ∧ (ddagger d).dom = d.cod ∧ (ddagger d).cod = d.dom ∧
    ∃ F F', pureEval d = .ok F ∧ pureEval (ddagger d) = .ok F' ∧
      ∀ x y, Bits d.dom.length x → Bits d.cod.length y → F' (y ++ x) = star (F (x ++ y)) := by
  have hD := h.toPureOK.den.ddagger h.adj
  obtain ⟨F, f1, f2⟩ := h.toPureOK.den.eval
  obtain ⟨F', f1', f2'⟩ := hD.eval
  exact ⟨h.ddagger, hD.dom, hD.cod, F, F', f1, f1', fun x y hx hy => by rw [f2' y x hy hx, f2 x y hx hy]⟩

/-- **C71 (square roots of negative numbers).** `Sqrt(-1).dagger()` is the same box again, although its value is not real. -/
theorem C71_refuted_sqrt :
    ∃ F F', pureEval (ofBox (sqrt (-1))) = .ok F ∧ pureEval (ddagger (ofBox (sqrt (-1)))) = .ok F' ∧ F' [] ≠ star (F []) := by
  have hgood : (sqrt (-1)).Good := trivial
  obtain ⟨F, f1, f2⟩ := (Den.ofBox hgood rfl).eval
  have e : ddagger (ofBox (sqrt (-1))) = ofBox (sqrt (-1)) := by
    have : star (-1 : ℂ) = -1 := by simp
    simp only [ddagger, daggerWith, ofBox, List.isEmpty_cons, List.reverse_cons, List.reverse_nil, List.nil_append, List.map_cons, List.map_nil, dagger, this]
    rfl
  refine ⟨F, F, f1, by rw [e]; exact f1, ?_⟩
  have h := f2 [] [] Bits.nil Bits.nil
  simp only [List.append_nil] at h
  rw [h]
  have hv : (-1 : ℂ) ^ (1 / 2 : ℂ) = Complex.I := by
    rw [Complex.cpow_def_of_ne_zero (by norm_num), Complex.log_neg_one]
    rw [show (Real.pi : ℂ) * Complex.I * (1 / 2) = (Real.pi / 2 : ℂ) * Complex.I by ring, Complex.exp_mul_I, Complex.cos_pi_div_two, Complex.sin_pi_div_two]
    simp
  simp only [NdArray.get, ravel, List.getD_cons_zero, hv]
  simp only [Complex.star_def, Complex.conj_I, ne_eq]
  intro h
  have := congrArg Complex.im h
  norm_num at this

/-- The gates of the module keep the promise of their flag. -/
theorem adj_gates : H.Adj ∧ S.Adj ∧ T.Adj ∧ X.Adj ∧ Y.Adj ∧ Z.Adj ∧ CX.Adj ∧ CY.Adj ∧ CZ.Adj ∧ CCX.Adj ∧ CCZ.Adj := by
  have key : ∀ (b : QBox) (p q r s : ℂ), b.dom = [.qubit] → b.cod = [.qubit] → b.array = .ok ⟨[2, 2], [p, q, r, s]⟩ → star p = p → star s = s → star r = q →
      Hermitian b := by
    intro b p q r s hd hc ha hp hs hr
    refine ⟨by rw [hd, hc], fun a ea x y hx hy => ?_⟩
    cases ea.symm.trans ha
    rw [hd] at hx hy
    obtain ⟨c, w, rfl, hc, hw⟩ := Bits.uncons (n := 0) hx
    obtain rfl := hw.eq_nil
    obtain ⟨c', w', rfl, hc', hw'⟩ := Bits.uncons (n := 0) hy
    obtain rfl := hw'.eq_nil
    have hq : star q = r := by rw [← hr, star_star]
    interval_cases c <;> interval_cases c' <;> simp only [NdArray.get, ravel, List.cons_append, List.nil_append] <;> norm_num <;>
      first | exact hp.symm | exact hq.symm | exact hr.symm | exact hs.symm
  have hH : H.Adj := fun _ => ⟨rfl, key _ _ _ _ _ rfl rfl rfl (by simp) (by simp) (by simp)⟩
  have hX : X.Adj := fun _ => ⟨rfl, key _ _ _ _ _ rfl rfl rfl (by simp) (by simp) (by simp)⟩
  have hY : Y.Adj := fun _ => ⟨rfl, key _ _ _ _ _ rfl rfl rfl (by simp) (by simp) (by simp)⟩
  have hZ : Z.Adj := fun _ => ⟨rfl, key _ _ _ _ _ rfl rfl rfl (by simp) (by simp) (by simp)⟩
  exact ⟨hH, nofun, nofun, hX, hY, hZ, hX, hY, hZ, hX, hZ⟩

/-- The boxes that the constructors and `dagger` make: `Daggered` is only put around boxes whose `dagger` is `Daggered`. -/
def Formed : QBox → Prop
  | daggered b => b.dagger = daggered b
  | controlled u _ => u.Formed
  | _ => True

/-- **C71 (involution).** `dagger` is an involution on boxes and circuits. -/
theorem C71_involution {b : QBox} (h : b.Formed) : b.dagger.dagger = b := by
  induction b with
  | gen n d c a z m sa => cases sa <;> rfl
  | selfConj n d c a sa => cases sa <;> rfl
  | rot ax θ => simp [dagger]
  | scalar c => simp [dagger]
  | sqrt c => simp [dagger]
  | controlled u d ih => simp only [dagger]; rw [ih h]
  | daggered b ih => exact h
  | _ => rfl

theorem C71_involution_circuit {d : Diagram QOb QBox} (hd : AdjOK d) (h : ∀ l ∈ d.layers, l.box.Formed) : ddagger (ddagger d) = d := by
  rw [ddagger_eq hd.ddagger.wt, ddagger_eq hd.wt]
  cases d with | mk a c ls =>
  simp only [List.map_reverse, List.reverse_reverse, List.map_map]
  congr 1
  conv_rhs => rw [← List.map_id ls]
  refine List.map_congr_left (fun l hl => ?_)
  simp only [Function.comp_apply, C71_involution (h l hl), id_eq]

/-- A circuit that meets the hypotheses: `CX >> S @ Rx(θ)`. -/
example (θ : ℝ) : ∃ d, andThen (ofBox CX) (tensor (ofBox S) (ofBox (rot .x θ))) = .ok d ∧ AdjOK d ∧ (ddagger d).boxes = [rot .x (-θ), daggered S, CX] ∧
    ∀ l ∈ d.layers, l.box.Formed := by
  refine ⟨⟨qubits 2, qubits 2, [⟨[], CX, []⟩, ⟨[], S, [.qubit]⟩, ⟨[.qubit], rot .x θ, []⟩]⟩, rfl, ⟨⟨⟨rfl, rfl, rfl, rfl⟩, ?_⟩, ?_⟩, rfl, ?_⟩
  · simp only [List.mem_cons, List.not_mem_nil, or_false, forall_eq_or_imp, forall_eq]
    exact ⟨.inl ⟨by decide, ⟨_, rfl, rfl, fun _ => rfl, by decide⟩, rfl⟩, .inl ⟨_, rfl, rfl, fun _ => rfl, by decide⟩, .inl trivial⟩
  · simp only [List.mem_cons, List.not_mem_nil, or_false, forall_eq_or_imp, forall_eq]
    exact ⟨adj_gates.2.2.2.2.2.2.1, nofun, trivial⟩
  · simp only [List.mem_cons, List.not_mem_nil, or_false, forall_eq_or_imp, forall_eq]
    exact ⟨trivial, trivial, trivial⟩

end
end QBox
end Lambeq
