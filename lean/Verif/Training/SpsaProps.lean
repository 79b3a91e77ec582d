import Verif.Training.Spsa
import Mathlib.Algebra.BigOperators.Group.Finset.Basic
import Mathlib.Algebra.BigOperators.Ring.Finset
import Mathlib.Algebra.BigOperators.Field
import Mathlib.Data.Fintype.BigOperators
import Mathlib.Data.Fintype.Pi
import Mathlib.Data.Fin.VecNotation
import Mathlib.Tactic.FieldSimp
import Mathlib.Tactic.Ring
import Mathlib.Algebra.Order.Ring.Rat
import Mathlib.Analysis.SpecialFunctions.Pow.Real

/-!
# C42: SPSA
-/

namespace Lambeq
namespace Train
set_option linter.unusedSimpArgs false
set_option linter.unusedVariables false
set_option linter.unusedSectionVars false

variable {K : Type} [Field K] [LinearOrder K] [IsStrictOrderedRing K]

/-! ## Specification -/

/-- The value is a finite number within the bounds. -/
def Within (b : K × K) (x : Fl K) : Prop := ∃ v, x = .num v ∧ b.1 ≤ v ∧ v ≤ b.2

/-- A finite number. -/
def Fl.Finite (x : Fl K) : Prop := ∃ v, x = .num v

/-- The weights of an optimiser are finite and inside the bounds, if it has any; nothing is left in the gradient. -/
structure Spsa.Good (s : Spsa K) : Prop where
  finite : ∀ x ∈ s.weights, x.Finite
  grad : s.gradient = s.weights.map (fun _ => .num 0)
  bounds : ∀ bds, s.bounds = some bds → List.Forall₂ Within bds s.weights ∧ ∀ b ∈ bds, b.1 < b.2
  ck : 0 < s.ck

/-! ## Backward -/

/-- **C42 (backward).** Calculating the gradient leaves the weights, and everything but the accumulated gradient, as they were,
whatever the loss function does. It returns the mean of the losses at two points, the weights moved by `± ck` in every coordinate and
projected; and the new gradient has the same length. -/
theorem C42_backward_restores (s s' : Spsa K) (symbols : List String) (free : List (List String)) (delta : List Bool)
    (loss : List (Fl K) → Fl K) (l : Fl K) (pts : List (List (Fl K))) (h : s.backward symbols free delta loss = .ok (s', l, pts)) :
    (∃ g, s' = { s with gradient := g }) ∧
    ∃ p m, pts = [p, m] ∧ l = ((loss p).add (loss m)).scale (1 / 2) ∧
      p = s.project (List.zipWith (fun x d => x.add (.num (s.ck * sgn d))) s.weights delta) ∧
      m = s.project (List.zipWith (fun x d => x.sub (.num (s.ck * sgn d))) s.weights delta) := by
  unfold Spsa.backward at h
  cases hm : (symbolMask symbols free : Except PyErr (List K)) with
  | error e => rw [hm] at h; cases h
  | ok mask =>
    rw [hm] at h
    simp only [bind, Except.bind] at h
    cases h
    exact ⟨⟨_, rfl⟩, _, _, rfl, rfl, rfl, rfl⟩

/-- **C42 (points evaluated).** With bounds, the loss is only evaluated at points inside the bounds (or not-a-number, for weights
that are). -/
theorem C42_points_in_bounds (s : Spsa K) (bds : List (K × K)) (hb : s.bounds = some bds) (hle : ∀ b ∈ bds, b.1 ≤ b.2) (x : List (Fl K))
    (hl : x.length = bds.length) : List.Forall₂ (fun b y => y = .nan ∨ Within b y) bds (s.project x) := by
  unfold Spsa.project
  rw [hb]
  simp only
  clear hb
  induction bds generalizing x with
  | nil => simp
  | cons b bds ih =>
    cases x with
    | nil => simp at hl
    | cons y x =>
      simp only [List.zipWith_cons_cons]
      refine .cons ?_ (ih (fun c hc => hle c (by simp [hc])) x (by simpa using hl))
      have hb := hle b (by simp)
      cases y with
      | num v => exact .inr ⟨_, rfl, by simp [hb], by simp⟩
      | pinf => exact .inr ⟨_, rfl, hb, le_refl _⟩
      | ninf => exact .inr ⟨_, rfl, by simp [hb], by simp⟩
      | nan => exact .inl rfl

/-- **C42 (step).** After a step, whatever the gradient, every weight is inside its bounds or not-a-number. -/
theorem C42_step_in_bounds (pow : K → K → K) (s : Spsa K) (bds : List (K × K)) (hb : s.bounds = some bds) (hle : ∀ b ∈ bds, b.1 ≤ b.2)
    (h1 : s.weights.length = bds.length) (h2 : s.gradient.length = bds.length) :
    List.Forall₂ (fun b y => y = .nan ∨ Within b y) bds (s.step pow).weights := by
  exact C42_points_in_bounds { s with weights := List.zipWith (fun (w g : Fl K) => w.sub (g.scale s.ak)) s.weights s.gradient } bds hb hle _ (by simp [h1, h2])

/-! ## One training step -/

theorem clip_within {b : K × K} {v : K} (h : b.1 ≤ v ∧ v ≤ b.2) : Fl.clip b (.num v) = .num v := by
  simp [Fl.clip, max_eq_left h.1, min_eq_left h.2]

/-- Inside proper bounds the two perturbed points differ, so the gradient is finite. -/
theorem clip_ne {b : K × K} {v c : K} (d : Bool) (hb : b.1 < b.2) (hv : b.1 ≤ v ∧ v ≤ b.2) (hc : 0 < c) :
    min (max (v + c * sgn d) b.1) b.2 - min (max (v - c * sgn d) b.1) b.2 ≠ 0 := by
  cases d
  · simp only [sgn, Bool.false_eq_true, if_false]
    have h1 : min (max (v + c * -1) b.1) b.2 < min (max (v - c * -1) b.1) b.2 := by
      rw [lt_min_iff]
      constructor
      · refine lt_of_le_of_lt (min_le_left _ _) (max_lt ?_ ?_)
        · exact lt_of_lt_of_le (by linarith) (le_max_left _ _)
        · exact lt_of_lt_of_le (by linarith) (le_max_left _ _)
      · rcases eq_or_lt_of_le hv.2 with h | h
        · refine lt_of_le_of_lt (min_le_left _ _) (max_lt (by linarith) hb)
        · refine lt_of_le_of_lt (min_le_left _ _) (max_lt (by linarith) hb)
    exact (sub_neg.2 h1).ne
  · simp only [sgn, if_true]
    have h1 : min (max (v - c * 1) b.1) b.2 < min (max (v + c * 1) b.1) b.2 := by
      rw [lt_min_iff]
      constructor
      · refine lt_of_le_of_lt (min_le_left _ _) (max_lt ?_ ?_)
        · exact lt_of_lt_of_le (by linarith) (le_max_left _ _)
        · exact lt_of_lt_of_le (by linarith) (le_max_left _ _)
      · refine lt_of_le_of_lt (min_le_left _ _) (max_lt (by linarith) hb)
    exact (sub_pos.2 h1).ne'

theorem sgn_ne (d : Bool) : (sgn d : K) ≠ 0 := by cases d <;> simp [sgn]

/-- The coordinates of the masked gradient are finite, and 0 where the mask is 0. -/
theorem grad_finite (s : Spsa K) (hs : s.Good) (delta : List Bool) (hd : delta.length = s.weights.length) (dl : K) (mask : List K) (hml : mask.length = s.weights.length) :
    (s.grad (.num dl) delta (s.project (List.zipWith (fun xi d => xi.add (.num (s.ck * sgn d))) s.weights delta))
      (s.project (List.zipWith (fun xi d => xi.sub (.num (s.ck * sgn d))) s.weights delta))).length = s.weights.length ∧
    ∀ g ∈ s.grad (.num dl) delta (s.project (List.zipWith (fun xi d => xi.add (.num (s.ck * sgn d))) s.weights delta))
      (s.project (List.zipWith (fun xi d => xi.sub (.num (s.ck * sgn d))) s.weights delta)), g.Finite := by
  have hck := hs.ck
  unfold Spsa.grad
  cases hb : s.bounds with
  | none =>
    refine ⟨by simp [hd], ?_⟩
    intro g hg
    obtain ⟨d, _, rfl⟩ := List.mem_map.1 hg
    have : 2 * s.ck * (sgn d : K) ≠ 0 := mul_ne_zero (mul_ne_zero two_ne_zero hck.ne') (sgn_ne d)
    exact ⟨dl / (2 * s.ck * sgn d), by simp only [Fl.div, if_neg this]⟩
  | some bds =>
    obtain ⟨h1, h2⟩ := hs.bounds bds hb
    simp only [Spsa.project, hb]
    clear hb hml mask hs
    generalize s.ck = ck at *
    generalize s.weights = ws at *
    induction h1 generalizing delta with
    | nil => simp
    | cons hw h1 ih =>
      rename_i b w bds ws
      cases delta with
      | nil => simp at hd
      | cons d delta =>
        obtain ⟨v, rfl, hv⟩ := hw
        obtain ⟨ih1, ih2⟩ := ih delta (fun b hb => h2 b (by simp [hb])) (by simpa using hd)
        simp only [List.zipWith_cons_cons]
        refine ⟨by simp only [List.length_cons, ih1], ?_⟩
        intro g hg
        rcases List.mem_cons.1 hg with rfl | hg
        · simp only [Fl.add, Fl.sub, Fl.neg, Fl.clip, Fl.div]
          have := clip_ne d (h2 b (by simp)) hv hck
          rw [sub_eq_add_neg, sub_eq_add_neg] at this
          rw [if_neg this]
          exact ⟨_, rfl⟩
        · exact ih2 g hg

/-- **C42 (a training step).** Let the weights be finite and inside bounds of positive width (or unbounded), no gradient be pending, and
`ck > 0`. For every batch, every choice of perturbations and every loss function with finite values, `backward` followed by `step`
succeeds, and afterwards: again all weights are finite and inside the bounds and the gradient is zero; and the weight of every symbol that does not
occur in the batch, while others do, is unchanged. -/
theorem C42_train_step (pow : K → K → K) (s : Spsa K) (hs : s.Good) (symbols : List String) (hsym : symbols.length = s.weights.length)
    (free : List (List String)) (hf : free ≠ []) (delta : List Bool) (hd : delta.length = s.weights.length) (loss : List (Fl K) → Fl K)
    (hl : ∀ x, (loss x).Finite) (hpow : 0 < pow ((s.sweep + 1 : Nat) : K) gamma) (hc : 0 < s.hc) :
    ∃ s1 l pts, s.backward symbols free delta loss = .ok (s1, l, pts) ∧ (s1.step pow).Good ∧ (s1.step pow).bounds = s.bounds ∧
      (s1.step pow).weights.length = s.weights.length ∧ (s1.step pow).sweep = s.sweep + 1 ∧ (s1.step pow).hc = s.hc ∧
      ∀ (i : Nat) (sym : String), symbols[i]? = some sym → (∀ f ∈ free, sym ∉ f) → (∃ f ∈ free, f ≠ []) →
        (s1.step pow).weights[i]? = s.weights[i]? := by
  obtain ⟨relevant, hmask, hrel⟩ : ∃ relevant : List String, symbolMask symbols free = .ok (symbols.map (fun s => if relevant.contains s then (1 : K) else 0)) ∧
      ((∃ f ∈ free, f ≠ []) → relevant = free.flatten) := by
    cases free with
    | nil => exact absurd rfl hf
    | cons f fs =>
      refine ⟨_, rfl, ?_⟩
      rintro ⟨g, hg, hne⟩
      have : ¬ ((f :: fs).flatten.isEmpty = true) := by
        rw [List.isEmpty_iff]
        intro e
        exact hne (List.flatten_eq_nil_iff.1 e g hg)
      simp only [this, Bool.false_eq_true, if_false]
  obtain ⟨l0, hl0⟩ := hl (s.project (List.zipWith (fun xi d => xi.add (.num (s.ck * sgn d))) s.weights delta))
  obtain ⟨l1, hl1⟩ := hl (s.project (List.zipWith (fun xi d => xi.sub (.num (s.ck * sgn d))) s.weights delta))
  have hdl : (Fl.num l0).sub (.num l1) = .num (l0 - l1) := by simp [Fl.sub, Fl.add, Fl.neg, sub_eq_add_neg]
  generalize hm : symbols.map (fun s => if relevant.contains s then (1 : K) else 0) = mask at hmask
  have hml : mask.length = s.weights.length := by rw [← hm, List.length_map, hsym]
  obtain ⟨hgl, hgf⟩ := grad_finite s hs delta hd (l0 - l1) mask hml
  unfold Spsa.backward
  rw [hmask]
  simp only [bind, Except.bind]
  refine ⟨_, _, _, rfl, ?_⟩
  simp only [hl0, hl1, hdl]
  generalize s.grad (.num (l0 - l1)) delta (s.project (List.zipWith (fun xi d => xi.add (.num (s.ck * sgn d))) s.weights delta))
      (s.project (List.zipWith (fun xi d => xi.sub (.num (s.ck * sgn d))) s.weights delta)) = grad at hgl hgf ⊢
  -- the accumulated gradient
  have hG : ∀ (i : Nat) (g : Fl K), (List.zipWith Fl.add s.gradient (List.zipWith Fl.scale grad mask))[i]? = some g →
      g.Finite ∧ (mask[i]? = some 0 → g = .num 0) := by
    intro i g hg
    rw [hs.grad] at hg
    simp only [List.getElem?_zipWith, List.getElem?_map] at hg
    cases hw : s.weights[i]? with
    | none => simp [hw] at hg
    | some w =>
      cases hgi : grad[i]? with
      | none => simp [hw, hgi] at hg
      | some gi =>
        cases hmi : mask[i]? with
        | none => simp [hw, hgi, hmi] at hg
        | some m =>
          simp only [hw, hgi, hmi, Option.map_some, Option.some.injEq] at hg
          obtain ⟨v, rfl⟩ := hgf gi (List.mem_of_getElem? hgi)
          subst hg
          refine ⟨⟨_, by simp [Fl.scale, Fl.add]; rfl⟩, ?_⟩
          intro hm0
          cases hm0
          simp [Fl.scale, Fl.add]
  generalize hGG : List.zipWith Fl.add s.gradient (List.zipWith Fl.scale grad mask) = G at hG
  have hGl : G.length = s.weights.length := by rw [← hGG]; simp [hs.grad, hgl, hml]
  -- the new weights
  let W := List.zipWith (fun (w g : Fl K) => w.sub (g.scale s.ak)) s.weights G
  have hWl : W.length = s.weights.length := by simp [W, hGl]
  have hWf : ∀ x ∈ W, x.Finite := by
    intro x hx
    obtain ⟨i, hi⟩ := List.getElem?_of_mem hx
    simp only [W, List.getElem?_zipWith] at hi
    cases hw : s.weights[i]? with
    | none => simp [hw] at hi
    | some w =>
      cases hg : G[i]? with
      | none => simp [hw, hg] at hi
      | some g =>
        simp only [hw, hg, Option.some.injEq] at hi
        obtain ⟨v, rfl⟩ := hs.finite w (List.mem_of_getElem? hw)
        obtain ⟨u, rfl⟩ := (hG i g hg).1
        exact ⟨v + -(u * s.ak), by rw [← hi]; rfl⟩
  have hWbd : ∀ bds, s.bounds = some bds → bds.length = s.weights.length := fun bds hb => (hs.bounds bds hb).1.length_eq
  have hstepw : (Spsa.step pow { s with gradient := G }).weights = s.project W := rfl
  have hpl : (s.project W).length = s.weights.length := by
    unfold Spsa.project
    cases hb : s.bounds with
    | none => exact hWl
    | some bds => simp [hWl, hWbd bds hb]
  have hpf : ∀ x ∈ s.project W, x.Finite := by
    unfold Spsa.project
    cases hb : s.bounds with
    | none => exact hWf
    | some bds =>
      intro x hx
      obtain ⟨i, hi⟩ := List.getElem?_of_mem hx
      simp only [List.getElem?_zipWith] at hi
      cases hbi : bds[i]? with
      | none => simp [hbi] at hi
      | some b =>
        cases hwi : W[i]? with
        | none => simp [hbi, hwi] at hi
        | some w =>
          simp only [hbi, hwi, Option.some.injEq] at hi
          obtain ⟨v, rfl⟩ := hWf w (List.mem_of_getElem? hwi)
          exact ⟨_, by rw [← hi]; rfl⟩
  have hgz : (Spsa.step pow { s with gradient := G }).gradient = (s.project W).map (fun _ => Fl.num 0) := by
    have : (Spsa.step pow { s with gradient := G }).gradient = G.map (fun g => g.scale 0) := rfl
    rw [this]
    apply List.ext_getElem
    · simp [hpl, hGl]
    · intro i h1 h2
      simp only [List.getElem_map]
      have h1' : i < G.length := by simpa using h1
      obtain ⟨u, hu⟩ := (hG i G[i] (List.getElem?_eq_getElem h1')).1
      rw [hu]; simp [Fl.scale]
  refine ⟨⟨by rw [hstepw]; exact hpf, by rw [hgz, hstepw], ?_, div_pos hc hpow⟩, rfl, by rw [hstepw, hpl], rfl, rfl, ?_⟩
  · intro bds hb
    have hb' : s.bounds = some bds := hb
    obtain ⟨h1, h2⟩ := hs.bounds bds hb'
    refine ⟨?_, h2⟩
    have := C42_points_in_bounds s bds hb' (fun b hb => (h2 b hb).le) W (by rw [hWl, hWbd bds hb'])
    rw [hstepw]
    refine (List.forall₂_iff_get.2 ⟨this.length_eq, ?_⟩)
    intro i q1 q2
    rcases (List.forall₂_iff_get.1 this).2 i q1 q2 with e | e
    · obtain ⟨v, hv⟩ := hpf _ (List.get_mem (s.project W) ⟨i, q2⟩)
      rw [e] at hv
      cases hv
    · exact e
  · intro i sym hi hnot hsome
    rw [hstepw]
    have hil : i < s.weights.length := by rw [← hsym]; exact (List.getElem?_eq_some_iff.1 hi).1
    have hm0 : mask[i]? = some 0 := by
      rw [← hm, List.getElem?_map, hi, hrel hsome]
      have : ¬ (free.flatten.contains sym = true) := by
        simp only [List.contains_eq_mem, decide_eq_true_eq, List.mem_flatten, not_exists, not_and]
        exact hnot
      simp only [Option.map_some, Option.some.injEq]
      rw [if_neg this]
    have hg0 : G[i]? = some (.num 0) := by
      rw [List.getElem?_eq_getElem (by omega)]
      rw [(hG i _ (List.getElem?_eq_getElem (by omega))).2 hm0]
    obtain ⟨v, hv⟩ := hs.finite s.weights[i] (List.getElem_mem _)
    have hwi : s.weights[i]? = some (.num v) := by rw [List.getElem?_eq_getElem hil, hv]
    have hW : W[i]? = some (.num v) := by
      simp only [W, List.getElem?_zipWith, hwi, hg0]
      simp [Fl.sub, Fl.scale, Fl.neg, Fl.add]
    rw [hwi]
    unfold Spsa.project
    cases hb : s.bounds with
    | none => exact hW
    | some bds =>
      obtain ⟨h1, h2⟩ := hs.bounds bds hb
      have hbl := hWbd bds hb
      simp only [List.getElem?_zipWith, hW, List.getElem?_eq_getElem (by omega : i < bds.length)]
      obtain ⟨v', e1, e2⟩ := (List.forall₂_iff_get.1 h1).2 i (by omega) hil
      have : v' = v := by
        have : Fl.num v' = Fl.num v := by rw [← e1, ← hv]; rfl
        exact Fl.num.inj this
      subst this
      rw [clip_within (b := bds[i]) e2]

/-! ## Any number of training steps -/

/-- What the trainer does with one batch: the symbols of the diagrams, the perturbation drawn and the loss as a function of the weights. -/
structure Batch (K : Type) where
  free : List (List String)
  delta : List Bool
  loss : List (Fl K) → Fl K

/-- quantum_trainer.py:162-168, for the optimiser. -/
def Spsa.train (pow : K → K → K) (symbols : List String) (s : Spsa K) (b : Batch K) : Except PyErr (Spsa K) := do
  let r ← s.backward symbols b.free b.delta b.loss
  .ok (r.1.step pow).zeroGrad

theorem zeroGrad_good {s : Spsa K} (h : s.Good) : s.zeroGrad.Good := by
  refine ⟨h.finite, ?_, h.bounds, h.ck⟩
  simp only [Spsa.zeroGrad, h.grad, List.map_map]
  apply List.map_congr_left
  intro x _
  simp [Fl.scale]

/-- **C42 (a training run).** Starting from finite weights inside proper bounds, after any sequence of training steps on batches with finite losses
the weights are finite and inside the bounds, and the weight of a symbol that is in no batch (while each batch has some symbol) is what it was at the
beginning. After `n` steps the sweep counter is `n + 1`, and `ak = a / (n + 1 + A) ** alpha`, `ck = c / (n + 1) ** gamma`. -/
theorem C42_run (pow : K → K → K) (hpow : ∀ n : Nat, 0 < pow ((n + 1 : Nat) : K) gamma) (symbols : List String) (weights : List (Fl K))
    (hw : ∀ x ∈ weights, x.Finite) (hsym : symbols.length = weights.length) (a c A : K) (hc : 0 < c) (bounds : Option (List (K × K)))
    (hb : ∀ bds, bounds = some bds → List.Forall₂ Within bds weights ∧ ∀ b ∈ bds, b.1 < b.2)
    (bs : List (Batch K)) (hbs : ∀ b ∈ bs, b.free ≠ [] ∧ b.delta.length = weights.length ∧ ∀ x, (b.loss x).Finite) :
    ∃ s0 s, Spsa.init pow weights (some (some a, some c, some A)) bounds = .ok s0 ∧ bs.foldlM (Spsa.train pow symbols) s0 = .ok s ∧
      (∀ x ∈ s.weights, x.Finite) ∧ (∀ bds, bounds = some bds → List.Forall₂ Within bds s.weights) ∧ s.weights.length = weights.length ∧
      s.sweep = bs.length + 1 ∧ s.ak = a / pow (((bs.length + 1 : Nat) : K) + A) alpha ∧ s.ck = c / pow ((bs.length + 1 : Nat) : K) gamma ∧
      ∀ (i : Nat) (sym : String), symbols[i]? = some sym → (∀ b ∈ bs, (∀ f ∈ b.free, sym ∉ f) ∧ ∃ f ∈ b.free, f ≠ []) → s.weights[i]? = weights[i]? := by
  let s0 : Spsa K := ⟨weights, weights.map (fun _ => .num 0), bounds, A, a, c, A, a, c, a / pow (1 + A) alpha, c / pow 1 gamma, 1⟩
  have h0 : Spsa.init pow weights (some (some a, some c, some A)) bounds = .ok s0 := by
    unfold Spsa.init
    cases hbd : bounds with
    | none => simp only [s0, hbd]
    | some bds =>
      have := (hb bds hbd).1.length_eq
      simp only [this, ne_eq, not_true_eq_false, if_false, s0, hbd]
  have hg0 : s0.Good := ⟨hw, rfl, hb, div_pos hc (by simpa using hpow 0)⟩
  have key : ∀ (n : Nat) (s0 : Spsa K) (bs : List (Batch K)), s0.Good → s0.weights.length = weights.length → s0.bounds = bounds → s0.sweep = n + 1 → s0.A = A → s0.ha = a →
      s0.hc = c → s0.ak = a / pow (((n + 1 : Nat) : K) + A) alpha → s0.ck = c / pow ((n + 1 : Nat) : K) gamma →
      (∀ b ∈ bs, b.free ≠ [] ∧ b.delta.length = weights.length ∧ ∀ x, (b.loss x).Finite) →
      ∃ s, bs.foldlM (Spsa.train pow symbols) s0 = .ok s ∧ s.Good ∧ s.bounds = bounds ∧ s.weights.length = weights.length ∧ s.sweep = n + bs.length + 1 ∧
        s.ak = a / pow (((n + bs.length + 1 : Nat) : K) + A) alpha ∧ s.ck = c / pow ((n + bs.length + 1 : Nat) : K) gamma ∧
        ∀ (i : Nat) (sym : String), symbols[i]? = some sym → (∀ b ∈ bs, (∀ f ∈ b.free, sym ∉ f) ∧ ∃ f ∈ b.free, f ≠ []) → s.weights[i]? = s0.weights[i]? := by
    intro n s0 bs
    induction bs generalizing n s0 with
    | nil => intro g1 g2 g3 g4 g5 g6 g7 g8 g9 _; exact ⟨s0, rfl, g1, g3, g2, g4, g8, g9, fun _ _ _ _ => rfl⟩
    | cons b bs ih =>
      intro g1 g2 g3 g4 g5 g6 g7 g8 g9 g10
      obtain ⟨q1, q2, q3⟩ := g10 b (by simp)
      obtain ⟨s1, l, pts, k1, k2, k3, k4, k5, k6, k7⟩ := C42_train_step pow s0 g1 symbols (by rw [hsym, g2]) b.free q1 b.delta (by rw [q2, g2]) b.loss q3
        (by rw [g4]; exact hpow (n + 1)) (by rw [g7]; exact hc)
      obtain ⟨⟨g, e⟩, _⟩ := C42_backward_restores _ _ _ _ _ _ _ _ k1
      have ht : Spsa.train pow symbols s0 b = .ok (s1.step pow).zeroGrad := by unfold Spsa.train; rw [k1]; rfl
      obtain ⟨s, r1, r2, r3, r4, r5, r6, r7, r8⟩ := ih (n + 1) (s1.step pow).zeroGrad (zeroGrad_good k2) (by rw [← g2, ← k4]; rfl) (by rw [← g3, ← k3]; rfl) (by rw [← g4, ← k5]; rfl)
        (by rw [e]; exact g5) (by rw [e]; exact g6) (by rw [e]; exact g7)
        (by rw [e]; show s0.ha / pow (((s0.sweep + 1 : Nat) : K) + s0.A) alpha = _; rw [g4, g5, g6])
        (by rw [e]; show s0.hc / pow ((s0.sweep + 1 : Nat) : K) gamma = _; rw [g4, g7]) (fun x hx => g10 x (by simp [hx]))
      refine ⟨s, by rw [List.foldlM_cons, ht]; exact r1, r2, r3, r4, by rw [r5]; simp; omega, by rw [r6, List.length_cons]; congr 5; omega,
        by rw [r7, List.length_cons]; congr 3; omega, ?_⟩
      intro i sym hi hall
      rw [r8 i sym hi (fun x hx => hall x (by simp [hx]))]
      exact k7 i sym hi (hall b (by simp)).1 (hall b (by simp)).2
  obtain ⟨s, r1, r2, r3, r4, r5, r6, r7, r8⟩ := key 0 s0 bs hg0 rfl rfl rfl rfl rfl rfl (by simp [s0]) (by simp [s0]) hbs
  refine ⟨s0, s, h0, r1, r2.finite, fun bds hbd => (r2.bounds bds (by rw [r3, hbd])).1, r4, by rw [r5]; omega, by rw [r6]; simp, by rw [r7]; simp, r8⟩

/-- The power function of the reals satisfies the hypothesis of `C42_run`. -/
example (n : Nat) : 0 < Real.rpow ((n + 1 : Nat) : ℝ) gamma := Real.rpow_pos_of_pos (by exact_mod_cast Nat.succ_pos n) _

/-- A run of two steps, with powers replaced by the first argument: the second weight, whose symbol is in no batch, stays. -/
example : ((do
    let s ← Spsa.init (fun x _ => x) [.num 0, .num (1/2)] (some (some 1, some 1, some 0)) (some [(-1, 1), (0, 2)])
    let b : Batch ℚ := ⟨[["x"], []], [true, false], fun w => (w.headD .nan).add (.num 3)⟩
    [b, b].foldlM (Spsa.train (fun x _ => x) ["x", "y"]) s : Except PyErr (Spsa ℚ)).toOption.map (fun s => (s.weights, s.sweep))) =
    some ([.num (-1), .num (1/2)], 3) := by decide +kernel

/-! ## The update -/

/-- **C42 (the update).** Without bounds, with the weights `w`, no pending gradient, all symbols in the batch, and a loss with the finite value `f` at
the weights plus and minus `ck` times the perturbation: after `backward` and `step` every weight `w i` has become
`w i - ak * (f (w + ck δ) - f (w - ck δ)) / (2 * ck * δ i)`. -/
theorem C42_update (pow : K → K → K) {n : Nat} (s : Spsa K) (hs : s.Good) (hb : s.bounds = none) (w : Fin n → K)
    (hw : s.weights = List.ofFn (fun i => Fl.num (w i))) (symbols : List String) (hsym : symbols.length = n) (free : List (List String))
    (hf : free ≠ []) (hall : ∀ x ∈ symbols, x ∈ free.flatten) (δ : Fin n → Bool) (loss : List (Fl K) → Fl K) (f : (Fin n → K) → K)
    (hl : ∀ v, loss (List.ofFn (fun i => Fl.num (v i))) = .num (f v)) :
    ∃ s1 l pts, s.backward symbols free (List.ofFn δ) loss = .ok (s1, l, pts) ∧
      (s1.step pow).weights = List.ofFn (fun i => Fl.num (w i - s.ak *
        ((f (fun j => w j + s.ck * sgn (δ j)) - f (fun j => w j - s.ck * sgn (δ j))) / (2 * s.ck * sgn (δ i))))) := by
  have hmask : (symbolMask symbols free : Except PyErr (List K)) = .ok (List.ofFn (fun _ : Fin n => (1 : K))) := by
    cases free with
    | nil => exact absurd rfl hf
    | cons a fs =>
      simp only [symbolMask]
      congr 1
      apply List.ext_getElem
      · simp [hsym]
      · intro i h1 h2
        simp only [List.getElem_map, List.getElem_ofFn]
        rw [if_pos]
        split
        · simp
        · simpa using hall (symbols[i]'(by simpa using h1)) (List.getElem_mem _)
  have hz : ∀ {α β γ : Type} (g : α → β → γ) (a : Fin n → α) (b : Fin n → β), List.zipWith g (List.ofFn a) (List.ofFn b) = List.ofFn (fun i => g (a i) (b i)) := by
    intro α β γ g a b
    apply List.ext_getElem
    · simp
    · intro i h1 h2; simp
  have hck : ∀ i, 2 * s.ck * sgn (δ i) ≠ 0 := by
    intro i
    refine mul_ne_zero (mul_ne_zero two_ne_zero hs.ck.ne') ?_
    cases δ i <;> simp [sgn]
  unfold Spsa.backward
  rw [hmask]
  simp only [bind, Except.bind]
  refine ⟨_, _, _, rfl, ?_⟩
  simp only [Spsa.step, Spsa.zeroGrad, Spsa.updateHyper, Spsa.project, Spsa.grad, hb, hs.grad, hw, hz, Fl.add, Fl.sub, Fl.neg, List.map_ofFn]
  have e1 : loss (List.ofFn (fun i => Fl.num (w i + -(s.ck * sgn (δ i))))) = .num (f (fun i => w i - s.ck * sgn (δ i))) := by
    rw [hl (fun i => w i + -(s.ck * sgn (δ i)))]; simp only [sub_eq_add_neg]
  rw [hl (fun i => w i + s.ck * sgn (δ i)), e1]
  simp only [Function.comp_def, hz, Fl.add, Fl.neg, Fl.div, hck, if_false, Fl.scale, mul_one, zero_add, sub_eq_add_neg]
  congr 1
  funext i
  rw [mul_comm]

theorem sum_sgn {n : Nat} (i j : Fin n) : (∑ δ : Fin n → Bool, (sgn (δ j) / sgn (δ i) : K)) = if j = i then 2 ^ n else 0 := by
  split
  · rename_i h
    subst h
    have : ∀ δ : Fin n → Bool, (sgn (δ j) / sgn (δ j) : K) = 1 := by intro δ; cases δ j <;> simp [sgn]
    simp [this]
  · rename_i h
    refine Finset.sum_involution (fun δ _ => Function.update δ j (!δ j)) ?_ ?_ (fun _ _ => Finset.mem_univ _) ?_
    · intro δ _
      simp only [Function.update_self, Function.update_of_ne (Ne.symm h)]
      cases δ j <;> simp [sgn, neg_div]
    · intro δ _ _ e
      have := congrFun e j
      simp at this
    · intro δ _
      simp

/-- **C42 (unbiased).** For an affine loss `b + Σ g i * w i`, the mean of the updated weights over all perturbations is the exact step of
gradient descent, `w i - ak * g i`. -/
theorem C42_unbiased (pow : K → K → K) {n : Nat} (s : Spsa K) (hs : s.Good) (hb : s.bounds = none) (w : Fin n → K)
    (hw : s.weights = List.ofFn (fun i => Fl.num (w i))) (symbols : List String) (hsym : symbols.length = n) (free : List (List String))
    (hf : free ≠ []) (hall : ∀ x ∈ symbols, x ∈ free.flatten) (loss : List (Fl K) → Fl K) (b : K) (g : Fin n → K)
    (hl : ∀ v : Fin n → K, loss (List.ofFn (fun i => Fl.num (v i))) = .num (b + ∑ i, g i * v i)) :
    ∃ u : (Fin n → Bool) → Fin n → K,
      (∀ δ, ∃ s1 l pts, s.backward symbols free (List.ofFn δ) loss = .ok (s1, l, pts) ∧ (s1.step pow).weights = List.ofFn (fun i => Fl.num (u δ i))) ∧
      ∀ i, (∑ δ, u δ i) / 2 ^ n = w i - s.ak * g i := by
  refine ⟨_, fun δ => C42_update pow s hs hb w hw symbols hsym free hf hall δ loss _ hl, ?_⟩
  intro i
  have h1 : ∀ δ : Fin n → Bool, (b + ∑ j, g j * (w j + s.ck * sgn (δ j)) - (b + ∑ j, g j * (w j - s.ck * sgn (δ j)))) / (2 * s.ck * sgn (δ i))
      = ∑ j, g j * (sgn (δ j) / sgn (δ i)) := by
    intro δ
    have hδ : (sgn (δ i) : K) ≠ 0 := by cases δ i <;> simp [sgn]
    rw [add_sub_add_left_eq_sub, ← Finset.sum_sub_distrib, Finset.sum_div]
    refine Finset.sum_congr rfl (fun j _ => ?_)
    have := hs.ck.ne'
    field_simp
    ring
  simp only [h1]
  rw [Finset.sum_sub_distrib, ← Finset.mul_sum, Finset.sum_comm]
  simp only [← Finset.mul_sum, sum_sgn]
  simp only [mul_ite, mul_zero, Finset.sum_ite_eq', Finset.mem_univ, if_true, Finset.sum_const, Finset.card_univ, Fintype.card_pi, Fintype.card_bool,
    Finset.prod_const, Fintype.card_fin, nsmul_eq_mul, Nat.cast_pow, Nat.cast_ofNat]
  have : (2 : K) ^ n ≠ 0 := pow_ne_zero _ two_ne_zero
  field_simp

/-- The hypotheses are met: two weights, `ck = 1`, the loss `3 + 2 x - y`. -/
example : ∃ s : Spsa ℚ, s.Good ∧ s.bounds = none ∧ s.weights = List.ofFn (fun i : Fin 2 => Fl.num (![1, 2] i)) :=
  ⟨⟨[.num 1, .num 2], [.num 0, .num 0], none, 0, 1, 1, 0, 1, 1, 1, 1, 1⟩, ⟨by simp [Fl.Finite], rfl, by simp, by norm_num⟩, rfl, by simp⟩

/-! ## Refutations -/

/-- **C42, refuted for bounds of width 0.** A weight whose bounds fix it, `[c, c]`, becomes not-a-number in the first training step: its two
perturbed values are equal, and the gradient is `0 / 0` or an infinity. -/
theorem C42_refuted_degenerate_bounds :
    ((do
      let s ← Spsa.init (fun x _ => x) [.num 0, .num (1/2)] (some (some 1, some 1, some 0)) (some [(-1, 1), (1/2, 1/2)])
      let b : Batch ℚ := ⟨[["x"]], [true, false], fun w => .num 3⟩
      [b].foldlM (Spsa.train (fun x _ => x) ["x", "y"]) s : Except PyErr (Spsa ℚ)).toOption.map (fun s => s.weights)) =
      some [.num 0, .nan] := by decide +kernel

/-- **C42, refuted for weights outside the bounds.** Initial weights are random in `[0, 1)` whatever the bounds. If such a weight is further than `ck`
outside, the first step makes it not-a-number instead of projecting it, also if its symbol is not in the batch. -/
theorem C42_refuted_outside_bounds :
    ((do
      let s ← Spsa.init (fun x _ => x) [.num 0, .num (1/2)] (some (some 1, some (1/8), some 0)) (some [(-1, 1), (1, 2)])
      let b : Batch ℚ := ⟨[["x"]], [true, false], fun w => w.headD .nan⟩
      [b].foldlM (Spsa.train (fun x _ => x) ["x", "y"]) s : Except PyErr (Spsa ℚ)).toOption.map (fun s => s.weights)) =
      some [.num (-1), .nan] := by decide +kernel

/-- **C42, refuted: zeroing the gradient.** `zero_grad` multiplies by 0, which does not remove an infinity or not-a-number: after it every such entry is
not-a-number, and then the weight is not-a-number after every later step, for any losses. -/
theorem C42_refuted_zero_grad (s : Spsa K) (i : Nat) (g : Fl K) (h : s.gradient[i]? = some g) (hg : ¬ g.Finite) (pow : K → K → K)
    (x : Fl K) (hx : s.weights[i]? = some x) (hb : ∀ bds, s.bounds = some bds → s.weights.length ≤ bds.length) :
    s.zeroGrad.gradient[i]? = some .nan ∧ (s.zeroGrad.step pow).weights[i]? = some .nan := by
  have h1 : s.zeroGrad.gradient[i]? = some .nan := by
    simp only [Spsa.zeroGrad, List.getElem?_map, h, Option.map_some, Option.some.injEq]
    cases g with
    | num v => exact absurd ⟨v, rfl⟩ hg
    | pinf => simp [Fl.scale]
    | ninf => simp [Fl.scale]
    | nan => rfl
  refine ⟨h1, ?_⟩
  have hsub : ∀ y : Fl K, y.sub .nan = .nan := by intro y; cases y <;> rfl
  have hW : (List.zipWith (fun (w g : Fl K) => w.sub (g.scale s.ak)) s.weights s.zeroGrad.gradient)[i]? = some .nan := by
    simp only [List.getElem?_zipWith, hx, h1, Fl.scale, hsub]
  show (s.project (List.zipWith (fun (w g : Fl K) => w.sub (g.scale s.ak)) s.weights s.zeroGrad.gradient))[i]? = some .nan
  unfold Spsa.project
  cases hbd : s.bounds with
  | none => exact hW
  | some bds =>
    have := hb bds hbd
    have hil := (List.getElem?_eq_some_iff.1 hx).1
    simp only [List.getElem?_zipWith, hW, List.getElem?_eq_getElem (by omega : i < bds.length), Fl.clip]

/-- **C42 (state dictionary).** An optimiser created with the same hyperparameters, given the state dictionary, steps as the original. -/
theorem C42_state_dict (pow : K → K → K) (s t : Spsa K) (hw : t.weights = s.weights) (hg : t.gradient = s.gradient) (hb : t.bounds = s.bounds)
    (h1 : t.hA = s.hA) (h2 : t.ha = s.ha) (h3 : t.hc = s.hc) : t.loadStateDict s.stateDict = s := by
  obtain ⟨a1, a2, a3, a4, a5, a6, a7, a8, a9, a10, a11, a12⟩ := s
  obtain ⟨b1, b2, b3, b4, b5, b6, b7, b8, b9, b10, b11, b12⟩ := t
  simp only at *
  subst_vars
  rfl

/-- **C42, refuted: hyperparameters in the state dictionary.** `a` and `c` are saved and loaded, but the decay reads the dictionary given to the
constructor: after loading a state into an optimiser created with other values, the next step returns to those. -/
theorem C42_refuted_load :
    ((do
      let s ← Spsa.init (fun x _ => x) [.num (0 : ℚ)] (some (some 1, some 1, some 0)) none
      let t ← Spsa.init (fun x _ => x) [.num (0 : ℚ)] (some (some 8, some 8, some 0)) none
      let t' := t.loadStateDict s.stateDict
      .ok (t'.a, t'.ak, (t'.step (fun x _ => x)).ak, (s.step (fun x _ => x)).ak) : Except PyErr (ℚ × ℚ × ℚ × ℚ)).toOption) = some (1, 1, 4, 1/2) := by
  decide +kernel

end Train
end Lambeq
