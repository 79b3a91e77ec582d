import Verif.Quantum.CircuitalStep

/-!
# Conversion to circuital form: the loop (C84)
-/

namespace Lambeq
open Diagram
set_option linter.unusedSectionVars false
set_option linter.unusedSimpArgs false

namespace QBox
noncomputable section

/-- What pulling a wire through a layer may do to its box. -/
def SameKind (b b' : QBox) : Prop :=
  b' = b ∨ ∃ g ds ds', b = nest g ds ∧ b' = nest g ds' ∧ OneQubit g ∧ ds ≠ [] ∧ ds'.length = ds.length ∧ (∀ d ∈ ds', d ≠ 0) ∧ g.isMixed = false ∧ g.ctrlDists = []

theorem pullStep_kind {l : Layer QOb QBox} (h : Pullable l) (p : Nat) : ∀ l' ∈ (pullStep p l).1, Pullable l' ∧ SameKind l.box l'.box := by
  obtain ⟨L, b, R⟩ := l
  intro l' hl'
  unfold pullStep at hl'
  simp only at hl'
  split at hl'
  · rw [List.mem_singleton.1 hl']
    refine ⟨?_, .inl rfl⟩
    rcases h with h | ⟨h, hL⟩ | h
    · exact .inl h
    · refine .inr (.inl ⟨h, fun o ho => ?_⟩)
      rcases List.mem_append.1 ho with ho | ho
      · exact hL o (List.mem_of_mem_take ho)
      · rcases List.mem_cons.1 ho with rfl | ho
        · rfl
        · exact hL o (List.mem_of_mem_drop ho)
    · exact .inr (.inr h)
  · rename_i h1
    split at hl'
    · rw [List.mem_singleton.1 hl']
      exact ⟨h, .inl rfl⟩
    · rename_i h2
      rcases h with h | ⟨h, hL⟩ | ⟨g, ds, hb, hg, hm, hgc, hst⟩
      · change b.dom.length ≤ 1 at h; omega
      · change b = _ at h
        subst h
        change ∀ o ∈ L, o = QOb.qubit at hL
        simp only [List.mem_cons, List.not_mem_nil, or_false] at hl'
        rcases hl' with rfl | rfl | rfl
        · exact ⟨.inr (.inl ⟨rfl, hL⟩), .inl rfl⟩
        · refine ⟨.inr (.inl ⟨rfl, fun o ho => ?_⟩), .inl rfl⟩
          rcases List.mem_cons.1 ho with rfl | ho
          · rfl
          · exact hL o ho
        · exact ⟨.inr (.inl ⟨rfl, hL⟩), .inl rfl⟩
      · change b = _ at hb
        subst hb
        have hw : (nest g ds).dom.length = width ds := by rw [(nest_type hg ds).1, qubits_length]
        rw [hw] at h2
        obtain ⟨k, rfl⟩ : ∃ k, p = L.length + k := ⟨p - L.length, by omega⟩
        cases ds with
        | nil => simp only [width] at h2; omega
        | cons d ds =>
          have hb := baseGate_nest hgc (d :: ds)
          have hl2 : l' ∈ [(⟨L, stretch (L.length + k) L.length (nest g (d :: ds)), R⟩ : Layer QOb QBox)] := hl'
          rw [List.mem_singleton] at hl2
          rw [stretch, hb.1, hb.2] at hl2
          obtain ⟨s0, s1, s2, s3, s4⟩ := stretch_dists hst (p := k) (off := L.length) (by omega) (by omega)
          rw [hl2]
          exact ⟨.inr (.inr ⟨g, _, rfl, hg, hm, hgc, s1⟩), .inr ⟨g, d :: ds, _, rfl, rfl, hg, by simp, s0, s1.ne, hm, hgc⟩⟩

/-- The boxes after the kets and before the post-selections of a circuital diagram. -/
def GateLayer (l : Layer QOb QBox) : Prop := Pullable l ∧ l.box.cod.length = l.box.dom.length ∧ l.box.isKet = false ∧ l.box.isEnd = false

/-- The layers with which the loop can deal. -/
def CircLayer (l : Layer QOb QBox) : Prop := l.box = ket false ∨ l.box = bra false ∨ l.box = discard ∨ GateLayer l

/-- The layers of the list `postselect`. -/
def PostLayer (l : Layer QOb QBox) : Prop := l.box = bra false ∨ l.box = discard

theorem SameKind.square {b b' : QBox} (h : SameKind b b') (hs : b.cod.length = b.dom.length) : b'.cod.length = b'.dom.length := by
  rcases h with rfl | ⟨g, ds, ds', rfl, rfl, hg, -⟩
  · exact hs
  · obtain ⟨t1, t2⟩ := nest_type hg ds'
    rw [t1, t2]

theorem SameKind.kind {b b' : QBox} (h : SameKind b b') : b'.isKet = b.isKet ∧ b'.isEnd = b.isEnd ∧ b'.isMeasure = b.isMeasure := by
  rcases h with rfl | ⟨g, ds, ds', rfl, rfl, hg, h1, h2, -⟩
  · exact ⟨rfl, rfl, rfl⟩
  · cases ds with
    | nil => exact absurd rfl h1
    | cons d ds =>
      cases ds' with
      | nil => simp at h2
      | cons d' ds' => exact ⟨rfl, rfl, rfl⟩

theorem GateLayer.pull {l : Layer QOb QBox} (h : GateLayer l) (p : Nat) : ∀ l' ∈ (pullStep p l).1, GateLayer l' := by
  intro l' hl'
  obtain ⟨k1, k2⟩ := pullStep_kind h.1 p l' hl'
  exact ⟨k1, k2.square h.2.1, k2.kind.1.trans h.2.2.1, k2.kind.2.1.trans h.2.2.2⟩

theorem CircLayer.pullable {l : Layer QOb QBox} (h : CircLayer l) : Pullable l := by
  rcases h with h | h | h | h
  · exact .inl (by rw [h]; simp [dom, sig])
  · exact .inl (by rw [h]; simp [dom, sig])
  · exact .inl (by rw [h]; simp [dom, sig])
  · exact h.1

theorem sameKind_eq {b b' : QBox} (h : SameKind b b') (hn : ∀ u d, b ≠ controlled u d) : b' = b := by
  rcases h with h | ⟨g, ds, ds', rfl, rfl, hg, h1, -⟩
  · exact h
  · cases ds with
    | nil => exact absurd rfl h1
    | cons d ds => exact absurd rfl (hn (nest g ds) d)

theorem CircLayer.pull {l : Layer QOb QBox} (h : CircLayer l) (p : Nat) : ∀ l' ∈ (pullStep p l).1, CircLayer l' := by
  intro l' hl'
  rcases h with h | h | h | h
  · exact .inl ((sameKind_eq (pullStep_kind (CircLayer.pullable (.inl h)) p l' hl').2 (by rw [h]; intro u d hh; cases hh)).trans h)
  · exact .inr (.inl ((sameKind_eq (pullStep_kind (CircLayer.pullable (.inr (.inl h))) p l' hl').2 (by rw [h]; intro u d hh; cases hh)).trans h))
  · exact .inr (.inr (.inl ((sameKind_eq (pullStep_kind (CircLayer.pullable (.inr (.inr (.inl h)))) p l' hl').2 (by rw [h]; intro u d hh; cases hh)).trans h)))
  · exact .inr (.inr (.inr (h.pull p l' hl')))

theorem pull_all {Q : Layer QOb QBox → Prop} (hQ : ∀ l, Q l → ∀ p, ∀ l' ∈ (pullStep p l).1, Q l') {ls : List (Layer QOb QBox)} (h : ∀ l ∈ ls, Q l) (p : Nat) :
    ∀ l ∈ (pull p ls).1, Q l := by
  induction ls generalizing p with
  | nil => intro l hl; cases hl
  | cons l ls ih =>
    intro l' hl'
    rcases List.mem_append.1 hl' with hl' | hl'
    · exact hQ l (h l (by simp)) p l' hl'
    · exact ih (fun l hl => h l (List.mem_cons_of_mem _ hl)) _ l' hl'

theorem pullStep_snd {l : Layer QOb QBox} (h : l.box.cod.length = l.box.dom.length) (p : Nat) : (pullStep p l).2 = p := by
  unfold pullStep
  simp only
  split
  · rfl
  · split
    · simp only; omega
    · obtain ⟨L, b, R⟩ := l
      cases b <;> rfl

theorem pull_snd {ls : List (Layer QOb QBox)} (h : ∀ l ∈ ls, l.box.cod.length = l.box.dom.length) (p : Nat) : (pull p ls).2 = p := by
  induction ls generalizing p with
  | nil => rfl
  | cons l ls ih =>
    show (pull (pullStep p l).2 ls).2 = p
    rw [pullStep_snd (h l (by simp)), ih (fun l hl => h l (List.mem_cons_of_mem _ hl))]

theorem pull_ne {ls : List (Layer QOb QBox)} (h : ∀ l ∈ ls, Pullable l) (p : Nat) (he : (pull p ls).1 = []) : ls = [] := by
  cases ls with
  | nil => rfl
  | cons l ls =>
    exfalso
    have he : (pullStep p l).1 ++ (pull (pullStep p l).2 ls).1 = [] := he
    have h1 := (List.append_eq_nil_iff.1 he).1
    have hl := h l (by simp)
    obtain ⟨L, b, R⟩ := l
    unfold pullStep at h1
    simp only at h1
    split at h1
    · simp at h1
    · split at h1
      · simp at h1
      · rename_i h3 h4
        rcases hl with hl | ⟨hl, -⟩ | ⟨g, ds, hb, hg, -⟩
        · change b.dom.length ≤ 1 at hl; omega
        · change b = _ at hl
          subst hl; simp at h1
        · change b = _ at hb
          subst hb
          cases ds with
          | nil => rw [show nest g [] = g from rfl, hg.dom] at h4; simp at h4; omega
          | cons d ds => exact absurd h1 (by simp [nest])

theorem chain_square {ls : List (Layer QOb QBox)} {a c : List QOb} (hc : Chain a ls c) (h : ∀ l ∈ ls, l.box.cod.length = l.box.dom.length) : c.length = a.length := by
  induction ls generalizing a with
  | nil => rw [show a = c from hc]
  | cons l ls ih =>
    obtain ⟨rfl, hc⟩ := hc
    rw [ih hc (fun l hl => h l (List.mem_cons_of_mem _ hl))]
    have := h l (by simp)
    show (l.left ++ l.box.cod ++ l.right).length = (l.left ++ l.box.dom ++ l.right).length
    simp only [List.length_append]; omega

theorem chain_last {ls : List (Layer QOb QBox)} {a c : List QOb} (hc : Chain a ls c) {g : Layer QOb QBox} (hg : ls.getLast? = some g) : g.cod = c := by
  obtain ⟨ys, rfl⟩ := List.getLast?_eq_some_iff.1 hg
  obtain ⟨b, -, h⟩ := chain_append_iff.1 hc
  obtain ⟨-, h⟩ := h
  exact h

/-! ## The initial qubits -/

theorem addKet_kets {n off : Nat} (h : off ≤ n) {l : Layer QOb QBox} (hl : l.box = ket false) : addKet (ketLayers 0 n) l off = ketLayers 0 (n + 1) := by
  have e : ∀ k n, ketLayers k n = (List.range' k n).map (fun i => (⟨qubits i, ket false, []⟩ : Layer QOb QBox)) := by
    intro k n
    induction n generalizing k with
    | zero => rfl
    | succ n ih => rw [ketLayers, ih, List.range'_succ, List.map_cons]
  have e2 : List.range' 0 n = List.range' 0 off ++ List.range' off (n - off) := by
    have := List.range'_append_1 (s := 0) (m := off) (n := n - off)
    rw [show off + (n - off) = n by omega, Nat.zero_add] at this
    exact this.symm
  have e3 : (List.range' 0 off).length = off := by simp
  rw [addKet, hl, e, e, List.map_map, ins, ← List.map_take, ← List.map_drop, e2, List.take_left' e3, List.drop_left' e3]
  have h3 : List.range' 0 (n + 1) = List.range' 0 off ++ off :: List.range' (off + 1) (n - off) := by
    have := List.range'_append_1 (s := 0) (m := off) (n := n - off + 1)
    rw [show off + (n - off + 1) = n + 1 by omega, Nat.zero_add, List.range'_succ] at this
    exact this.symm
  rw [h3, List.map_append, List.map_cons]
  congr 1
  · refine List.map_congr_left (fun i hi => ?_)
    have hi := List.mem_range'_1.1 hi
    simp only [Function.comp, qubits, List.length_replicate]
    rw [if_neg (by omega)]
  · congr 1
    have h4 : List.range' (off + 1) (n - off) = (List.range' off (n - off)).map (· + 1) := by
      have := List.map_add_range' (a := 1) off (n - off) 1
      rw [Nat.add_comm off 1, ← this]
      exact List.map_congr_left (fun i _ => Nat.add_comm 1 i)
    rw [h4, List.map_map]
    refine List.map_congr_left (fun i hi => ?_)
    have hi := List.mem_range'_1.1 hi
    simp only [Function.comp, qubits, List.length_replicate]
    rw [if_pos (by omega), ins_replicate (by omega)]

/-- The value of a ket. -/
def ketVal (b : Bool) (s : Nat) : ℂ := cqI.ten (ket b) [] [s]

/-- The state of `n` qubits that are initialised with 0. -/
def zeroState (n : Nat) : List Nat → ℂ := cqI.run (ketLayers 0 n) (fun z => if z = [] then 1 else 0)

theorem act_ket (b : Bool) (L R : List QOb) (V : List Nat → ℂ) {yl yr : List Nat} {s : Nat} (hl : yl.length = L.length) :
    cqI.act ⟨L, ket b, R⟩ V (yl ++ s :: yr) = V (yl ++ yr) * ketVal b s := by
  have h := cqI.act_split ⟨L, ket b, R⟩ V (yl := yl) (c := [s]) yr hl rfl
  refine (show cqI.act ⟨L, ket b, R⟩ V (yl ++ ([s] ++ yr)) = _ from h).trans ?_
  show ∑ i ∈ cqI.idx [], _ = _
  rw [sum_cqIdx_nil]
  rfl

theorem cq_run_kets (k n : Nat) (V : List Nat → ℂ) {x y : List Nat} (hx : x.length = k) (hy : y.length = n) :
    cqI.run (ketLayers k n) V (x ++ y) = V x * (y.map (ketVal false)).prod := by
  induction n generalizing k V x y with
  | zero => rw [List.length_eq_zero_iff.1 hy]; simp [ketLayers, Interp.run]
  | succ n ih =>
    cases y with
    | nil => simp at hy
    | cons s y =>
      rw [ketLayers, Interp.run, show x ++ s :: y = (x ++ [s]) ++ y by simp, ih (k + 1) _ (by simp [hx]) (by simpa using hy)]
      have := act_ket false (qubits k) [] V (yl := x) (yr := []) (s := s) (by rw [hx, qubits_length])
      rw [List.append_nil] at this
      rw [this, List.map_cons, List.prod_cons, mul_assoc]

theorem zeroState_eq {n : Nat} {x : List Nat} (h : x.length = n) : zeroState n x = (x.map (ketVal false)).prod := by
  have := cq_run_kets 0 n (fun z => if z = [] then 1 else 0) (x := []) (y := x) rfl h
  rw [if_pos rfl, one_mul] at this
  exact this

theorem zeroState_ins {n p s : Nat} {x : List Nat} (h : x.length = n) : zeroState (n + 1) (ins p s x) = ketVal false s * zeroState n x := by
  rw [zeroState_eq h, zeroState_eq (by rw [ins_length, h]), ins_map]
  unfold ins
  rw [List.prod_append, List.prod_cons]
  conv_rhs => rw [← List.take_append_drop p (x.map (ketVal false)), List.prod_append]
  ring

theorem run_smul (ls : List (Layer QOb QBox)) (k : ℂ) (V : List Nat → ℂ) (y : List Nat) : cqI.run ls (fun x => k * V x) y = k * cqI.run ls V y := by
  have := cqI.run_linear ls (Finset.univ : Finset Unit) (fun _ => k) (fun _ => V) y
  simpa using this

/-! ## Post-selections -/

/-- The value of a post-selection or a discard. -/
def endVal (b : QBox) (s : Nat) : ℂ := cqI.ten b [s] []

theorem PostLayer.sig {l : Layer QOb QBox} (h : PostLayer l) : l.box.dom = [.qubit] ∧ l.box.cod = [] := by
  rcases h with h | h <;> rw [h] <;> exact ⟨rfl, rfl⟩

theorem act_end {L R : List QOb} {b : QBox} (hd : b.dom = [.qubit]) (hc : b.cod = []) (V : List Nat → ℂ) {yl yr : List Nat} (hl : yl.length = L.length) :
    cqI.act ⟨L, b, R⟩ V (yl ++ yr) = ∑ s ∈ Finset.range 4, endVal b s * V (yl ++ s :: yr) := by
  have h := cqI.act_split ⟨L, b, R⟩ V (yl := yl) (c := []) yr hl (by show _ = b.cod.length; rw [hc]; rfl)
  refine (show cqI.act ⟨L, b, R⟩ V (yl ++ ([] ++ yr)) = _ from h).trans ?_
  show ∑ i ∈ cqI.idx b.dom, _ = _
  rw [hd, cqI.sum_idx_cons]
  refine Finset.sum_congr rfl (fun s _ => ?_)
  rw [sum_cqIdx_nil, mul_comm]
  rfl

theorem act_end_ins {b : QBox} (hd : b.dom = [.qubit]) (hc : b.cod = []) (V : List Nat → ℂ) {t : List QOb} {q : Nat} {y : List Nat} (hy : y ∈ cqI.idx t) :
    cqI.act ⟨t.take q, b, t.drop q⟩ V y = ∑ s ∈ Finset.range 4, endVal b s * V (ins q s y) := by
  have hl := cqI.length_of_mem hy
  have := act_end (L := t.take q) (R := t.drop q) hd hc V (yl := y.take q) (yr := y.drop q) (by simp [hl])
  rw [List.take_append_drop] at this
  exact this

/-! ## The loop -/

theorem circLoop_spec (kets gates post rest : List (Layer QOb QBox)) : ∀ (n : Nat) (m m2 c : List QOb), kets = ketLayers 0 n → Chain (qubits n) gates m →
    Chain m rest m2 → Chain m2 post c → (∀ l ∈ gates, GateLayer l) → (∀ l ∈ rest, CircLayer l) → (∀ l ∈ post, PostLayer l) →
    ∃ n' m', (circLoop kets gates post rest).1 = ketLayers 0 n' ∧ Chain (qubits n') (circLoop kets gates post rest).2.1 m' ∧
      Chain m' (circLoop kets gates post rest).2.2 c ∧ (∀ l ∈ (circLoop kets gates post rest).2.1, GateLayer l) ∧
      (∀ l ∈ (circLoop kets gates post rest).2.2, PostLayer l) ∧
      (∀ y ∈ cqI.idx c, cqI.run (circLoop kets gates post rest).2.2 (cqI.run (circLoop kets gates post rest).2.1 (zeroState n')) y =
        cqI.run post (cqI.run rest (cqI.run gates (zeroState n))) y) ∧
      (n ≠ 0 ∨ gates ≠ [] ∨ post ≠ [] ∨ rest ≠ [] → n' ≠ 0 ∨ (circLoop kets gates post rest).2.1 ≠ [] ∨ (circLoop kets gates post rest).2.2 ≠ []) := by
  induction kets, gates, post, rest using circLoop.induct with
  | case1 kets gates post =>
    intro n m m2 c hk hg hr hp g1 g2 g3
    obtain rfl : m = m2 := hr
    rw [circLoop]
    exact ⟨n, m, hk, hg, hp, g1, g3, fun y _ => rfl, by simp⟩
  | case2 kets gates post l rest hket ih =>
    intro n m m2 c hk hg hr hp g1 g2 g3
    rw [circLoop, if_pos hket]
    obtain ⟨rfl, hr⟩ := hr
    have hlb : l.box = ket false := by
      rcases g2 l (by simp) with h | h | h | h
      · exact h
      · rw [h] at hket; cases hket
      · rw [h] at hket; cases hket
      · rw [h.2.2.1] at hket; cases hket
    obtain ⟨L, b, R⟩ := l
    change b = _ at hlb
    subst hlb
    have hdom : (⟨L, ket false, R⟩ : Layer QOb QBox).dom = L ++ R := by show L ++ [] ++ R = _; simp
    have hcod : (⟨L, ket false, R⟩ : Layer QOb QBox).cod = L ++ .qubit :: R := by show L ++ [.qubit] ++ R = _; simp
    rw [hdom] at hg
    rw [hcod] at hr
    have hlen := chain_square hg (fun l hl => (g1 l hl).2.1)
    rw [qubits_length, List.length_append] at hlen
    have hP := pulled hg (fun l hl => (g1 l hl).1) (p := L.length) (by rw [qubits_length]; omega)
    rw [pull_snd (fun l hl => (g1 l hl).2.1)] at hP
    have hch := hP.chain
    rw [ins_at, show ins L.length QOb.qubit (qubits n) = qubits (n + 1) from ins_replicate (by omega)] at hch
    obtain ⟨n', m', r1, r2, r3, r4, r5, r6, r7⟩ := ih (n + 1) _ m2 c (by rw [hk]; exact addKet_kets (by show L.length ≤ n; omega) rfl) hch hr hp
      (pull_all (fun l hl p => hl.pull p) g1 _) (fun l hl => g2 l (List.mem_cons_of_mem _ hl)) g3
    refine ⟨n', m', r1, r2, r3, r4, r5, fun y hy => ?_, fun _ => r7 (.inl (by omega))⟩
    rw [r6 y hy]
    refine cqI.run_congr hp (fun y hy => ?_) y hy
    rw [Interp.run]
    refine cqI.run_congr hr (fun z hz => ?_) y hy
    obtain ⟨yl, z2, rfl, m1, m2'⟩ := cqI.mem_append hz
    have m3 := (cqI.mem_idx _ _).1 m2'
    cases m3 with
    | cons hs m3 =>
      rename_i s yr
      have k1 := cqI.length_of_mem m1
      rw [act_ket false L R _ k1]
      have hy2 : yl ++ yr ∈ cqI.idx (L ++ R) := cqI.append_mem m1 ((cqI.mem_idx _ _).2 m3)
      have := hP.run (zeroState (n + 1)) s hs _ hy2
      rw [← k1, ins_at] at this
      show cqI.run (pull L.length gates).1 _ _ = _
      rw [← k1, this, mul_comm, ← run_smul]
      refine cqI.run_congr hg (fun x hx => ?_) _ hy2
      exact zeroState_ins (by rw [cqI.length_of_mem hx, qubits_length])
  | case3 kets gates post l rest hket hend ih =>
    intro n m m2 c hk hg hr hp g1 g2 g3
    rw [circLoop, if_neg hket, if_pos hend]
    obtain ⟨rfl, hr⟩ := hr
    have hlb : PostLayer l := by
      rcases g2 l (by simp) with h | h | h | h
      · rw [h] at hend; cases hend
      · exact .inl h
      · exact .inr h
      · rw [h.2.2.2] at hend; cases hend
    obtain ⟨hbd, hbc⟩ := hlb.sig
    have hcirc : ∀ l ∈ rest, CircLayer l := fun l hl => g2 l (List.mem_cons_of_mem _ hl)
    obtain ⟨L, b, R⟩ := l
    change b.dom = _ at hbd
    change b.cod = _ at hbc
    have hdom : (⟨L, b, R⟩ : Layer QOb QBox).dom = L ++ .qubit :: R := by show L ++ b.dom ++ R = _; rw [hbd]; simp
    have hcod : (⟨L, b, R⟩ : Layer QOb QBox).cod = L ++ R := by show L ++ b.cod ++ R = _; rw [hbc]; simp
    rw [hdom] at hg
    rw [hcod] at hr
    have hP := pulled hr (fun l hl => (hcirc l hl).pullable) (p := L.length) (by simp)
    have hch := hP.chain
    rw [ins_at] at hch
    have hbuild : buildLeftRight (pull L.length rest).2 ⟨L, b, R⟩ (pull L.length rest).1 = ⟨m2.take (pull L.length rest).2, b, m2.drop (pull L.length rest).2⟩ := by
      unfold buildLeftRight
      cases hlast : (pull L.length rest).1.getLast? with
      | none =>
        have hnil := pull_ne (fun l hl => (hcirc l hl).pullable) _ (List.getLast?_eq_none_iff.1 hlast)
        subst hnil
        obtain rfl : L ++ R = m2 := hr
        simp [pull]
      | some g =>
        have hgc := chain_last hP.chain hlast
        have hle := hP.le
        simp only [hgc]
        have e1 : (ins (pull L.length rest).2 QOb.qubit m2).take (pull L.length rest).2 = m2.take (pull L.length rest).2 := by
          unfold ins
          rw [List.take_append_of_le_length (by simp; omega), List.take_take, Nat.min_self]
        have e2 : (ins (pull L.length rest).2 QOb.qubit m2).drop ((pull L.length rest).2 + 1) = m2.drop (pull L.length rest).2 := by
          unfold ins
          have : (m2.take (pull L.length rest).2).length = (pull L.length rest).2 := by rw [List.length_take]; omega
          rw [List.drop_append, this, List.drop_of_length_le (by omega), show (pull L.length rest).2 + 1 - (pull L.length rest).2 = 1 by omega]
          rfl
        rw [e1, e2]
    have hb2 : PostLayer (⟨m2.take (pull L.length rest).2, b, m2.drop (pull L.length rest).2⟩ : Layer QOb QBox) := hlb
    have hd2 : (⟨m2.take (pull L.length rest).2, b, m2.drop (pull L.length rest).2⟩ : Layer QOb QBox).dom = ins (pull L.length rest).2 .qubit m2 := by
      show _ ++ b.dom ++ _ = _; rw [hbd]; simp [ins]
    have hc2 : (⟨m2.take (pull L.length rest).2, b, m2.drop (pull L.length rest).2⟩ : Layer QOb QBox).cod = m2 := by
      show _ ++ b.cod ++ _ = _; rw [hbc]; simp
    simp only [hbuild] at ih ⊢
    obtain ⟨n', m', r1, r2, r3, r4, r5, r6, r7⟩ := ih n _ (ins (pull L.length rest).2 .qubit m2) c hk hg hch ⟨hd2, by rw [hc2]; exact hp⟩ g1
      (pull_all (fun l hl p => hl.pull p) hcirc _) (fun l hl => by
        rcases List.mem_cons.1 hl with rfl | hl
        · exact hb2
        · exact g3 l hl)
    refine ⟨n', m', r1, r2, r3, r4, r5, fun y hy => ?_, fun _ => r7 (.inr (.inr (.inl (by simp))))⟩
    rw [r6 y hy, Interp.run]
    refine cqI.run_congr hp (fun y hy => ?_) y hy
    rw [act_end_ins hbd hbc _ hy, Interp.run]
    have e1 : ∀ s ∈ Finset.range 4, endVal b s * cqI.run (pull L.length rest).1 (cqI.run gates (zeroState n)) (ins (pull L.length rest).2 s y) =
        endVal b s * cqI.run rest (fun x => cqI.run gates (zeroState n) (ins L.length s x)) y := by
      intro s hs
      rw [hP.run _ s (Finset.mem_range.1 hs) y hy]
    rw [Finset.sum_congr rfl e1, ← cqI.run_linear]
    refine cqI.run_congr hr (fun x hx => ?_) y hy
    obtain ⟨xl, xr, rfl, m1, -⟩ := cqI.mem_append hx
    have k1 := cqI.length_of_mem m1
    rw [act_end hbd hbc _ k1]
    refine Finset.sum_congr rfl (fun s _ => ?_)
    rw [← k1, ins_at]
  | case4 kets gates post l rest hket hend ih =>
    intro n m m2 c hk hg hr hp g1 g2 g3
    rw [circLoop, if_neg hket, if_neg hend]
    obtain ⟨hd, hr⟩ := hr
    have hlb : GateLayer l := by
      rcases g2 l (by simp) with h | h | h | h
      · rw [h] at hket; exact absurd rfl hket
      · rw [h] at hend; exact absurd rfl hend
      · rw [h] at hend; exact absurd rfl hend
      · exact h
    obtain ⟨n', m', r1, r2, r3, r4, r5, r6, r7⟩ := ih n l.cod m2 c hk (hg.append ⟨hd, rfl⟩) hr hp (fun l' hl' => by
        rcases List.mem_append.1 hl' with hl' | hl'
        · exact g1 l' hl'
        · rw [List.mem_singleton.1 hl']; exact hlb) (fun l hl => g2 l (List.mem_cons_of_mem _ hl)) g3
    refine ⟨n', m', r1, r2, r3, r4, r5, fun y hy => ?_, fun _ => r7 (.inr (.inl (by simp)))⟩
    rw [r6 y hy, cqI.run_append]
    rfl

end
end QBox
end Lambeq
