import Verif.Training.EarlyStopProps
import Mathlib.Tactic.FieldSimp

/-!
# C39: accounting of the training loop
-/

namespace Lambeq
namespace Train
set_option linter.unusedSimpArgs false
set_option linter.unusedVariables false

variable {W B P S : Type}

/-! ## Specification -/

/-- The datasets and settings are usable: every pass over the training data yields batches of the given sizes, all of them
non-empty (C37); the validation data has at least one batch and no empty one; metrics are evaluated every `evalStep ≥ 1`
steps; the early stopping criterion is one of the metrics. -/
structure Env.Ok (E : Env W B P) (sizes : List Nat) : Prop where
  train : ∀ w, (E.trainData w).1.map E.size = sizes
  pos : ∀ s ∈ sizes, 0 < s
  ne : sizes ≠ []
  val : ∀ f ∈ E.valData, ∀ w, (f w).1 ≠ [] ∧ ∀ b ∈ (f w).1, 0 < E.size b
  step : 0 < E.evalStep
  crit : ∀ i ∈ E.criterion, i < E.metrics.length

/-- The values the criterion has taken in a history. -/
def critOf (E : Env W B P) (h : Hist) : List ℚ :=
  match E.criterion with
  | none => h.valCosts
  | some i => (h.valEval[i]?).getD []

/-- The number of evaluations after `n` steps. -/
def evals (E : Env W B P) (n : Nat) : Nat := if E.valData.isSome then n / E.evalStep else 0

/-- The file of the best model belongs to the first position of the best value of the criterion. -/
def BestSaved (E : Env W B P) (st : St W S) : Prop :=
  ∃ c p v, st.bestLt = some c ∧ critOf E c.hist = p ++ [v] ∧ (p ++ [v]) <+: critOf E st.hist ∧
    (∀ x ∈ p, Better E.minimize v x) ∧ ∀ x ∈ critOf E st.hist, ¬ Better E.minimize x v

/-! ## Weighted means -/

theorem sum_pos_of {xs : List (Nat × ℚ)} (hne : xs ≠ []) (hp : ∀ p ∈ xs, 0 < p.1) : 0 < (xs.map (·.1)).sum := by
  cases xs with
  | nil => exact absurd rfl hne
  | cons x xs => have := hp x (by simp); simp; omega

theorem weightedMean_ok {xs : List (Nat × ℚ)} (hne : xs ≠ []) (hp : ∀ p ∈ xs, 0 < p.1) :
    ∃ m, weightedMean xs = .ok m ∧ m * (((xs.map (·.1)).sum : Nat) : ℚ) = (xs.map (fun p => (p.1 : ℚ) * p.2)).sum := by
  have := sum_pos_of hne hp
  refine ⟨_, by unfold weightedMean; simp only; rw [if_neg this.ne'], ?_⟩
  have h : (((xs.map (·.1)).sum : Nat) : ℚ) ≠ 0 := by exact_mod_cast this.ne'
  exact div_mul_cancel₀ _ h

theorem summarize_ok {run : List (List (Nat × ℚ))} {res : List (List ℚ)} (hl : res.length = run.length)
    (hr : ∀ r ∈ run, r ≠ [] ∧ ∀ p ∈ r, 0 < p.1) :
    ∃ res', summarize run res = .ok res' ∧ res'.length = res.length ∧
      ∀ (i : Nat) (r : List ℚ), res[i]? = some r → ∃ m, res'[i]? = some (r ++ [m]) := by
  have : ∃ ms, run.mapM weightedMean = .ok ms ∧ ms.length = run.length := by
    clear hl
    induction run with
    | nil => exact ⟨[], rfl, rfl⟩
    | cons r run ih =>
      obtain ⟨ms, h1, h2⟩ := ih (fun r hr' => hr r (by simp [hr']))
      obtain ⟨m, h3, _⟩ := weightedMean_ok (hr r (by simp)).1 (hr r (by simp)).2
      exact ⟨m :: ms, by rw [List.mapM_cons, h3, h1]; rfl, by simp [h2]⟩
  obtain ⟨ms, h1, h2⟩ := this
  refine ⟨_, by unfold summarize; rw [h1]; rfl, by simp; omega, ?_⟩
  intro i r hi
  have hil := (List.getElem?_eq_some_iff.1 hi).1
  rw [List.getElem?_zipWith, hi, List.getElem?_eq_getElem (by omega : i < ms.length)]
  exact ⟨_, rfl⟩

/-! ## The invariant of the loop over batches -/

/-- Between two batches of a fit that started from a new trainer. -/
structure Inv (E : Env W B P) (blt : Option (Ckpt S)) (st : St W S) : Prop where
  l1 : st.trainRun.length = E.metrics.length
  l2 : st.valRun.length = E.metrics.length
  l3 : st.hist.trainEval.length = E.metrics.length
  l4 : st.hist.valEval.length = E.metrics.length
  vr : ∀ r ∈ st.valRun, r = []
  tr : ∀ r ∈ st.trainRun, ∀ p ∈ r, 0 < p.1
  lp : ∀ p ∈ st.losses, 0 < p.1
  tc : st.hist.trainCosts.length = st.step
  nt : st.hist.nTrain = st.step
  te : ∀ l ∈ st.hist.trainEval, l.length = if E.evalOnTrain then st.step / E.evalStep else 0
  vc : st.hist.valCosts.length = evals E st.step
  ve : ∀ l ∈ st.hist.valEval, l.length = evals E st.step
  b0 : critOf E st.hist = [] → st.best = none ∧ st.bestLt = blt
  b1 : critOf E st.hist ≠ [] → BestSaved E st ∧ ∀ c p v, st.bestLt = some c → critOf E c.hist = p ++ [v] → st.best = some (factor E.minimize * v)

theorem critVals_ok {E : Env W B P} {sizes : List Nat} (hE : E.Ok sizes) {h : Hist} (hl : h.valEval.length = E.metrics.length) :
    critVals E h = .ok (critOf E h) := by
  unfold critVals critOf
  cases hc : E.criterion with
  | none => rfl
  | some i =>
    have := hE.crit i (by simp [hc])
    simp only [List.getElem?_eq_getElem (by omega : i < h.valEval.length)]
    rfl

theorem pushMetrics_length (E : Env W B P) (run : List (List (Nat × ℚ))) (y : P) (b : B) (h : run.length = E.metrics.length) :
    (pushMetrics E run y b).length = E.metrics.length := by
  unfold pushMetrics; simp; omega

theorem pushMetrics_mem {E : Env W B P} {run : List (List (Nat × ℚ))} {y : P} {b : B} {r : List (Nat × ℚ)}
    (h : r ∈ pushMetrics E run y b) : ∃ r0 ∈ run, ∃ v, r = r0 ++ [(E.size b, v)] := by
  unfold pushMetrics at h
  generalize E.metrics = ms at h
  induction ms generalizing run with
  | nil => simp at h
  | cons f ms ih =>
    cases run with
    | nil => simp at h
    | cons r0 run =>
      simp only [List.zipWith_cons_cons, List.mem_cons] at h
      rcases h with rfl | h
      · exact ⟨r0, by simp, _, rfl⟩
      · obtain ⟨r1, h1, h2⟩ := ih h
        exact ⟨r1, by simp [h1], h2⟩

/-- What the validation loop leaves alone and what it builds. -/
theorem valLoop_spec (E : Env W B P) (bs : List B) (st : St W S) (ls : List (Nat × ℚ)) (hb : ∀ b ∈ bs, 0 < E.size b)
    (hl : st.valRun.length = E.metrics.length) (hv : ∀ r ∈ st.valRun, ∀ p ∈ r, 0 < p.1) (hls : ∀ p ∈ ls, 0 < p.1) :
    let r := valLoop E bs st ls
    r.1.hist = { st.hist with nVal := st.hist.nVal + bs.length } ∧ r.1.step = st.step ∧ r.1.trainRun = st.trainRun ∧
      r.1.losses = st.losses ∧ r.1.best = st.best ∧ r.1.modelLt = st.modelLt ∧ r.1.bestLt = st.bestLt ∧
      r.1.valRun.length = E.metrics.length ∧ (∀ q ∈ r.1.valRun, ∀ p ∈ q, 0 < p.1) ∧
      (bs ≠ [] ∨ (∀ q ∈ st.valRun, q ≠ []) → ∀ q ∈ r.1.valRun, q ≠ []) ∧ (∀ p ∈ r.2, 0 < p.1) ∧ r.2.length = ls.length + bs.length := by
  induction bs generalizing st ls with
  | nil => exact ⟨rfl, rfl, rfl, rfl, rfl, rfl, rfl, hl, hv, by simp [valLoop], hls, rfl⟩
  | cons b bs ih =>
    have hne : ∀ r ∈ pushMetrics E st.valRun (E.valid st.world b).2.1 b, r ≠ [] := by
      intro r hr
      obtain ⟨r0, _, v, rfl⟩ := pushMetrics_mem hr
      simp
    have := ih { st with world := (E.valid st.world b).1, valRun := pushMetrics E st.valRun (E.valid st.world b).2.1 b,
                         hist := { st.hist with nVal := st.hist.nVal + 1 } } (ls ++ [(E.size b, (E.valid st.world b).2.2)])
      (fun x hx => hb x (by simp [hx])) (pushMetrics_length E _ _ _ hl)
      (by
        intro r hr p hp
        obtain ⟨r0, h0, v, rfl⟩ := pushMetrics_mem hr
        rcases List.mem_append.1 hp with hp | hp
        · exact hv r0 h0 p hp
        · simp at hp; subst hp; exact hb b (by simp))
      (by
        intro p hp
        rcases List.mem_append.1 hp with hp | hp
        · exact hls p hp
        · simp at hp; subst hp; exact hb b (by simp))
    obtain ⟨h1, h2, h3, h4, h5, h6, h7, h8, h9, h10, h11, h12⟩ := this
    refine ⟨?_, h2, h3, h4, h5, h6, h7, h8, h9, fun _ => h10 (.inr hne), h11, ?_⟩
    · rw [valLoop, h1]; simp; omega
    · rw [valLoop, h12]; simp; omega

theorem critOf_append {E : Env W B P} {sizes : List Nat} (hE : E.Ok sizes) {h h' : Hist}
    (hc : ∃ v, h'.valCosts = h.valCosts ++ [v]) (hl : h.valEval.length = E.metrics.length)
    (he : ∀ (i : Nat) (r : List ℚ), h.valEval[i]? = some r → ∃ m, h'.valEval[i]? = some (r ++ [m])) :
    ∃ v, critOf E h' = critOf E h ++ [v] := by
  unfold critOf
  cases hcr : E.criterion with
  | none => exact hc
  | some i =>
    have := hE.crit i (by simp [hcr])
    obtain ⟨m, hm⟩ := he i _ (List.getElem?_eq_getElem (by omega : i < h.valEval.length))
    refine ⟨m, ?_⟩
    simp [hm, List.getElem?_eq_getElem (by omega : i < h.valEval.length)]

theorem better_total {m : Bool} {a b : ℚ} (h : ¬ Better m a b) (h2 : ¬ Better m b a) : a = b := by
  cases m <;> simp [Better] at * <;> linarith

/-- One validation. -/
theorem validate_spec {E : Env W B P} {sizes : List Nat} (hE : E.Ok sizes) (save : W → S) (epoch : Nat) {data : W → List B × W}
    (hd : E.valData = some data) (st : St W S) (hl2 : st.valRun.length = E.metrics.length)
    (hl4 : st.hist.valEval.length = E.metrics.length) (hvr : ∀ r ∈ st.valRun, r = []) :
    ∃ st' v, validate E save epoch data st = .ok st' ∧ st'.step = st.step ∧ st'.trainRun = st.trainRun ∧ st'.losses = st.losses ∧
      st'.modelLt = st.modelLt ∧ st'.valRun.length = E.metrics.length ∧ (∀ r ∈ st'.valRun, r = []) ∧
      st'.hist.trainCosts = st.hist.trainCosts ∧ st'.hist.trainEpochCosts = st.hist.trainEpochCosts ∧
      st'.hist.trainEval = st.hist.trainEval ∧ st'.hist.nTrain = st.hist.nTrain ∧ st'.hist.nEpoch = st.hist.nEpoch ∧
      st'.hist.valCosts.length = st.hist.valCosts.length + 1 ∧ st'.hist.valEval.length = E.metrics.length ∧
      (∀ n, (∀ l ∈ st.hist.valEval, l.length = n) → ∀ l ∈ st'.hist.valEval, l.length = n + 1) ∧
      critOf E st'.hist = critOf E st.hist ++ [v] ∧
      ((st.best = none ∨ (∃ b, st.best = some b ∧ factor E.minimize * v < b)) ∧ st'.best = some (factor E.minimize * v) ∧
          (∃ c, st'.bestLt = some c ∧ c.hist = st'.hist ∧ c.step = st.step ∧ c.epoch = epoch)
        ∨ (∃ b, st.best = some b ∧ ¬ factor E.minimize * v < b) ∧ st'.best = st.best ∧ st'.bestLt = st.bestLt) := by
  obtain ⟨hv1, hv2⟩ := hE.val data (by simp [hd]) st.world
  obtain ⟨h1, h2, h3, h4, h5, h6, h7, h8, h9, h10, h11, h12⟩ := valLoop_spec E (data st.world).1 { st with world := (data st.world).2 } []
    hv2 hl2 (fun r hr p hp => by rw [hvr r hr] at hp; simp at hp) (by simp)
  unfold validate
  generalize hr : valLoop E (data st.world).1 { st with world := (data st.world).2 } [] = r at *
  obtain ⟨s1, ls⟩ := r
  simp only at h1 h2 h3 h4 h5 h6 h7 h8 h9 h10 h11 h12
  have hls : ls ≠ [] := by
    intro e
    have := h12
    rw [e] at this
    simp at this
    exact hv1 (List.length_eq_zero_iff.1 this.symm)
  obtain ⟨cost, hcost, _⟩ := weightedMean_ok hls h11
  have hs1 : s1.hist.valEval = st.hist.valEval := by rw [h1]
  obtain ⟨ve, hve, hvl, hvi⟩ := summarize_ok (run := s1.valRun) (res := s1.hist.valEval) (by rw [hs1]; omega)
    (fun r hr => ⟨h10 (.inl hv1) r hr, h9 r hr⟩)
  obtain ⟨v, hv⟩ := critOf_append hE (h := st.hist) (h' := { s1.hist with valCosts := s1.hist.valCosts ++ [cost], valEval := ve })
    ⟨cost, by simp [h1]⟩ hl4 (by rw [← hs1]; exact hvi)
  have hlen : ve.length = E.metrics.length := by rw [hvl, hs1]; exact hl4
  simp only [hr, hcost, hve, bind, Except.bind]
  rw [critVals_ok hE (h := { s1.hist with valCosts := s1.hist.valCosts ++ [cost], valEval := ve }) hlen]
  simp only [hv, List.getLast?_append, List.getLast?_singleton, Option.some_or]
  have hvn : ∀ n, (∀ l ∈ st.hist.valEval, l.length = n) → ∀ l ∈ ve, l.length = n + 1 := by
    intro n hn l hl
    obtain ⟨i, hi⟩ := List.getElem?_of_mem hl
    have hil := (List.getElem?_eq_some_iff.1 hi).1
    obtain ⟨m, hm⟩ := hvi i _ (List.getElem?_eq_getElem (by omega : i < s1.hist.valEval.length))
    rw [hm] at hi
    have := Option.some.inj hi
    rw [← this, List.length_append, hn _ (by rw [← hs1]; exact List.getElem_mem _)]
    rfl
  have hvre : ∀ r ∈ s1.valRun.map (fun _ => ([] : List (Nat × ℚ))), r = [] := by
    intro r hr; obtain ⟨_, _, rfl⟩ := List.mem_map.1 hr; rfl
  have hvl2 : (s1.valRun.map (fun _ => ([] : List (Nat × ℚ)))).length = E.metrics.length := by simp [h8]
  cases hb : st.best with
  | none =>
    rw [show s1.best = none by rw [h5, hb]]
    simp only [if_true]
    exact ⟨_, v, rfl, h2, h3, h4, h6, hvl2, hvre, by simp [h1], by simp [h1], by simp [h1], by simp [h1], by simp [h1], by simp [h1], hlen, hvn, hv,
      .inl ⟨.inl (by first | exact rfl | trivial), rfl, _, rfl, rfl, h2, rfl⟩⟩
  | some b =>
    rw [show s1.best = some b by rw [h5, hb]]
    by_cases hlt : factor E.minimize * v < b
    · simp only [hlt, decide_true, if_true]
      exact ⟨_, v, rfl, h2, h3, h4, h6, hvl2, hvre, by simp [h1], by simp [h1], by simp [h1], by simp [h1], by simp [h1], by simp [h1], hlen, hvn, hv,
        .inl ⟨.inr ⟨b, rfl, hlt⟩, rfl, _, rfl, rfl, h2, rfl⟩⟩
    · simp only [hlt, decide_false, Bool.false_eq_true, if_false]
      exact ⟨_, v, rfl, h2, h3, h4, h6, hvl2, hvre, by simp [h1], by simp [h1], by simp [h1], by simp [h1], by simp [h1], by simp [h1], hlen, hvn, hv,
        .inr ⟨⟨b, rfl, hlt⟩, by simp [h5, hb], h7⟩⟩

/-- The early stopping rule (C38): `k ≥ 1` values in a row, the last ones, are strictly worse than the one before them. -/
def Triggers (E : Env W B P) (l : List ℚ) : Prop :=
  ∃ k, 0 < k ∧ E.esInterval = some k ∧ ∃ pre r last, l = pre ++ r :: last ∧ last.length = k ∧ ∀ w ∈ last, Better E.minimize r w

theorem earlyStop_triggers (E : Env W B P) (l : List ℚ) :
    ∃ b, earlyStop l E.esInterval E.minimize = .ok b ∧ (b = true ↔ Triggers E l) := by
  obtain ⟨h1, ⟨b0, h2, h20⟩, h3⟩ := C38_check l E.minimize
  unfold Triggers
  cases hi : E.esInterval with
  | none => exact ⟨false, h1, by simp⟩
  | some k =>
    rcases Nat.eq_zero_or_pos k with rfl | hk
    · refine ⟨b0, h2, by simp [h20]; intro k hk e; omega⟩
    · obtain ⟨b, hb, hiff⟩ := h3 k hk
      refine ⟨b, hb, hiff.trans ⟨fun h => ⟨k, hk, rfl, h⟩, ?_⟩⟩
      rintro ⟨k', hk', e, h⟩
      cases e
      exact h

theorem not_triggers_nil (E : Env W B P) : ¬ Triggers E [] := by
  rintro ⟨k, _, _, pre, r, last, e, _⟩
  simp at e

theorem factor_better {m : Bool} {a b : ℚ} : factor m * a < factor m * b ↔ Better m a b := by
  cases m <;> simp [factor, Better]

theorem succ_div' (n d : Nat) (hd : 0 < d) : (n + 1) / d = n / d + if (n + 1) % d = 0 then 1 else 0 := by
  rw [Nat.succ_div]
  simp only [Nat.dvd_iff_mod_eq_zero]

/-- Evaluating on the training set keeps the rest of the state. -/
theorem evalTrain_spec {E : Env W B P} {sizes : List Nat} (hE : E.Ok sizes) (st : St W S)
    (l1 : st.trainRun.length = E.metrics.length) (l3 : st.hist.trainEval.length = E.metrics.length)
    (tr : ∀ r ∈ st.trainRun, ∀ p ∈ r, 0 < p.1) (tne : E.evalOnTrain = true → ∀ r ∈ st.trainRun, r ≠ []) :
    ∃ te run, evalTrain E st = .ok { st with hist := { st.hist with trainEval := te }, trainRun := run } ∧
      te.length = E.metrics.length ∧ run.length = E.metrics.length ∧ (∀ r ∈ run, ∀ p ∈ r, 0 < p.1) ∧
      ∀ n, (∀ l ∈ st.hist.trainEval, l.length = n) → ∀ l ∈ te, l.length = n + if E.evalOnTrain ∧ st.step % E.evalStep = 0 then 1 else 0 := by
  unfold evalTrain
  have hs := hE.step
  by_cases ht : E.evalOnTrain = true
  · rw [if_pos ht, if_neg (by omega)]
    by_cases hm : st.step % E.evalStep = 0
    · rw [if_pos hm]
      obtain ⟨te, h1, h2, h3⟩ := summarize_ok (run := st.trainRun) (res := st.hist.trainEval) (by omega) (fun r hr => ⟨tne ht r hr, tr r hr⟩)
      rw [h1]
      refine ⟨te, _, rfl, by omega, by simp [l1], ?_, ?_⟩
      · intro r hr; obtain ⟨_, _, rfl⟩ := List.mem_map.1 hr; simp
      · intro n hn l hl
        rw [if_pos ⟨ht, hm⟩]
        obtain ⟨i, hi⟩ := List.getElem?_of_mem hl
        have hil := (List.getElem?_eq_some_iff.1 hi).1
        obtain ⟨m, hm⟩ := h3 i _ (List.getElem?_eq_getElem (by omega : i < st.hist.trainEval.length))
        rw [hm] at hi
        rw [← Option.some.inj hi, List.length_append, hn _ (List.getElem_mem _)]
        rfl
    · rw [if_neg hm]
      exact ⟨_, _, rfl, l3, l1, tr, fun n hn l hl => by rw [if_neg (by tauto)]; exact hn l hl⟩
  · rw [if_neg ht]
    exact ⟨_, _, rfl, l3, l1, tr, fun n hn l hl => by rw [if_neg (by tauto)]; exact hn l hl⟩

/-- One batch. -/
theorem batchStep_spec {E : Env W B P} {sizes : List Nat} (hE : E.Ok sizes) (save : W → S) (epoch : Nat) (st : St W S) (b : B)
    (blt : Option (Ckpt S)) (hI : Inv E blt st) (hb : 0 < E.size b) :
    ∃ st' stop x, batchStep E save epoch st b = .ok (st', stop) ∧ Inv E blt st' ∧ st'.step = st.step + 1 ∧
      st'.losses = st.losses ++ [(E.size b, x)] ∧ st'.hist.trainCosts = st.hist.trainCosts ++ [x] ∧
      st'.hist.trainEpochCosts = st.hist.trainEpochCosts ∧ st'.hist.nEpoch = st.hist.nEpoch ∧ st'.modelLt = st.modelLt ∧
      (stop = true ↔ Triggers E (critOf E st'.hist)) ∧
      (critOf E st'.hist = critOf E st.hist ∨ ∃ v, critOf E st'.hist = critOf E st.hist ++ [v]) := by
  unfold batchStep
  have hs := hE.step
  -- the training step
  have hrun : (trainOne E st b).trainRun.length = E.metrics.length := by
    simp only [trainOne]; split
    · exact pushMetrics_length E _ _ _ hI.l1
    · exact hI.l1
  have htr : ∀ r ∈ (trainOne E st b).trainRun, ∀ p ∈ r, 0 < p.1 := by
    simp only [trainOne]; split
    · intro r hr p hp
      obtain ⟨r0, h0, v, rfl⟩ := pushMetrics_mem hr
      rcases List.mem_append.1 hp with hp | hp
      · exact hI.tr r0 h0 p hp
      · simp at hp; subst hp; exact hb
    · exact hI.tr
  have htn : E.evalOnTrain = true → ∀ r ∈ (trainOne E st b).trainRun, r ≠ [] := by
    intro ht; simp only [trainOne]; rw [if_pos ht]
    intro r hr
    obtain ⟨r0, h0, v, rfl⟩ := pushMetrics_mem hr
    simp
  obtain ⟨te, run, h1, h2, h3, h4, h5⟩ := evalTrain_spec hE (trainOne E st b) hrun hI.l3 htr htn
  rw [h1]
  simp only [bind, Except.bind]
  generalize hx : (E.train st.world b).2.2 = x
  generalize hs2 : ({ trainOne E st b with hist := { (trainOne E st b).hist with trainEval := te }, trainRun := run } : St W S) = s2
  have e0 : s2.step = st.step + 1 := by rw [← hs2]; rfl
  have e1 : s2.trainRun = run := by rw [← hs2]
  have e2 : s2.valRun = st.valRun := by rw [← hs2]; rfl
  have e3 : s2.losses = st.losses ++ [(E.size b, x)] := by rw [← hs2, ← hx]; rfl
  have e4 : s2.hist = { st.hist with trainCosts := st.hist.trainCosts ++ [x], nTrain := st.hist.nTrain + 1, trainEval := te } := by rw [← hs2, ← hx]; rfl
  have e5 : s2.best = st.best := by rw [← hs2]; rfl
  have e6 : s2.bestLt = st.bestLt := by rw [← hs2]; rfl
  have e7 : s2.modelLt = st.modelLt := by rw [← hs2]; rfl
  have e8 : critOf E s2.hist = critOf E st.hist := by rw [e4]; rfl
  have hte : ∀ l ∈ te, l.length = if E.evalOnTrain then (st.step + 1) / E.evalStep else 0 := by
    intro l hl
    rw [h5 _ hI.te l hl, show (trainOne E st b).step = st.step + 1 from rfl, succ_div' _ _ hs]
    by_cases ht : E.evalOnTrain = true <;> simp [ht]
  have hlp : ∀ p ∈ st.losses ++ [(E.size b, x)], 0 < p.1 := by
    intro p hp
    rcases List.mem_append.1 hp with hp | hp
    · exact hI.lp p hp
    · simp at hp; subst hp; exact hb
  -- no evaluation in this step
  have hno : evals E (st.step + 1) = evals E st.step → ∃ stop, earlyStop (critOf E s2.hist) E.esInterval E.minimize = .ok stop ∧ Inv E blt s2 ∧ s2.step = st.step + 1 ∧
      s2.losses = st.losses ++ [(E.size b, x)] ∧ s2.hist.trainCosts = st.hist.trainCosts ++ [x] ∧
      s2.hist.trainEpochCosts = st.hist.trainEpochCosts ∧ s2.hist.nEpoch = st.hist.nEpoch ∧ s2.modelLt = st.modelLt ∧
      (stop = true ↔ Triggers E (critOf E s2.hist)) ∧
      (critOf E s2.hist = critOf E st.hist ∨ ∃ v, critOf E s2.hist = critOf E st.hist ++ [v]) := by
    intro hev
    obtain ⟨bb, hbb, hiff⟩ := earlyStop_triggers E (critOf E s2.hist)
    refine ⟨bb, hbb, ⟨by rw [e1]; exact h3, by rw [e2]; exact hI.l2, by rw [e4]; exact h2, by rw [e4]; exact hI.l4, by rw [e2]; exact hI.vr,
      by rw [e1]; exact h4, by rw [e3]; exact hlp, by rw [e4, e0]; simp [hI.tc], by rw [e4, e0]; simp [hI.nt], by rw [e4, e0]; exact hte,
      by rw [e4, e0, hev]; exact hI.vc, by rw [e4, e0, hev]; exact hI.ve, by rw [e8, e5, e6]; exact hI.b0, ?_⟩,
      e0, e3, by rw [e4], by rw [e4], by rw [e4], e7, hiff, .inl e8⟩
    rw [e8, e6, e5]
    unfold BestSaved
    rw [e8, e6]
    exact hI.b1
  unfold evalVal
  cases hd : E.valData with
  | none =>
    obtain ⟨bb, hbb, hrest⟩ := hno (by simp [evals, hd])
    simp only
    rw [critVals_ok hE (by rw [e4]; exact hI.l4)]
    simp only [hbb]
    exact ⟨s2, bb, x, rfl, hrest⟩
  | some data =>
    simp only [if_neg (by omega : ¬ E.evalStep = 0)]
    by_cases hm : s2.step % E.evalStep = 0
    · simp only [if_pos hm]
      obtain ⟨st', v, g1, g2, g3, g4, g5, g6, g7, g8, g9, g10, g11, g12, g13, g14, g15, g16, g17⟩ :=
        validate_spec hE save epoch hd s2 (by rw [e2]; exact hI.l2) (by rw [e4]; exact hI.l4) (by rw [e2]; exact hI.vr)
      rw [g1]
      simp only
      rw [critVals_ok hE g14]
      obtain ⟨bb, hbb, hiff⟩ := earlyStop_triggers E (critOf E st'.hist)
      simp only [hbb]
      have hev : evals E (st.step + 1) = evals E st.step + 1 := by
        unfold evals
        rw [hd, ← e0]
        simp only [Option.isSome_some, if_true]
        rw [e0, succ_div' _ _ hs, if_pos (by rw [← e0]; exact hm)]
      rw [e8] at g16
      rw [e5, e6] at g17
      refine ⟨st', bb, x, rfl, ⟨by rw [g3, e1]; exact h3, g6, by rw [g10, e4]; exact h2, g14, g7, by rw [g3, e1]; exact h4, by rw [g4, e3]; exact hlp,
        by rw [g8, g2, e4, e0]; simp [hI.tc], by rw [g11, g2, e4, e0]; simp [hI.nt], by rw [g10, g2, e4, e0]; exact hte,
        by rw [g13, g2, e4, e0, hev, ← hI.vc], ?_, by rw [g16]; simp, ?_⟩,
        by rw [g2, e0], by rw [g4, e3], by rw [g8, e4], by rw [g9, e4], by rw [g12, e4], by rw [g5, e7], hiff, .inr ⟨v, g16⟩⟩
      · rw [g2, e0, hev]
        exact g15 _ (by rw [e4]; exact hI.ve)
      · intro _
        rcases g17 with ⟨k1, k2, c, k3, k4, k5, k6⟩ | ⟨⟨bv, k1, k2⟩, k3, k4⟩
        · refine ⟨⟨c, critOf E st.hist, v, k3, by rw [k4, g16], by rw [g16]; exact List.prefix_refl _, ?_, ?_⟩, ?_⟩
          · intro y hy
            have hne : critOf E st.hist ≠ [] := by intro e; rw [e] at hy; simp at hy
            obtain ⟨⟨c0, p0, v0, b1, b2, b3, b4, b5⟩, b6⟩ := hI.b1 hne
            have hbest := b6 c0 p0 v0 b1 b2
            rcases k1 with k1 | ⟨b', k1, k1'⟩
            · rw [hbest] at k1; simp at k1
            · rw [hbest] at k1
              cases k1
              have hlt := factor_better.1 k1'
              have hny := b5 y hy
              revert hlt hny
              cases E.minimize <;> simp [Better] <;> intro a1 a2 <;> linarith
          · intro y hy
            rw [g16] at hy
            rcases List.mem_append.1 hy with hy | hy
            · have hne : critOf E st.hist ≠ [] := by intro e; rw [e] at hy; simp at hy
              obtain ⟨⟨c0, p0, v0, b1, b2, b3, b4, b5⟩, b6⟩ := hI.b1 hne
              have hbest := b6 c0 p0 v0 b1 b2
              rcases k1 with k1 | ⟨b', k1, k1'⟩
              · rw [hbest] at k1; simp at k1
              · rw [hbest] at k1
                cases k1
                have hlt := factor_better.1 k1'
                have hny := b5 y hy
                revert hlt hny
                cases E.minimize <;> simp [Better] <;> intro a1 a2 <;> linarith
            · simp at hy; subst hy
              cases E.minimize <;> simp [Better]
          · intro c' p' v' q1 q2
            rw [k3] at q1
            cases q1
            rw [k4, g16] at q2
            have := List.append_inj' q2 rfl
            simp at this
            rw [k2, this.2]
        · have hne : critOf E st.hist ≠ [] := by
            intro e; rw [(hI.b0 e).1] at k1; simp at k1
          obtain ⟨⟨c0, p0, v0, b1, b2, b3, b4, b5⟩, b6⟩ := hI.b1 hne
          have hbest := b6 c0 p0 v0 b1 b2
          rw [hbest] at k1
          cases k1
          refine ⟨⟨c0, p0, v0, by rw [k4, b1], b2, b3.trans (by rw [g16]; exact List.prefix_append _ _), b4, ?_⟩, ?_⟩
          · intro y hy
            rw [g16] at hy
            rcases List.mem_append.1 hy with hy | hy
            · exact b5 y hy
            · simp at hy; subst hy
              exact fun h => k2 (factor_better.2 h)
          · intro c' p' v' q1 q2
            rw [k4, b1] at q1
            cases q1
            rw [b2] at q2
            have := List.append_inj' q2 rfl
            simp at this
            rw [k3, hbest, this.2]
    · simp only [if_neg hm]
      have hev : evals E (st.step + 1) = evals E st.step := by
        unfold evals
        rw [hd]
        simp only [Option.isSome_some, if_true]
        rw [succ_div' _ _ hs, if_neg (by rw [← e0]; exact hm)]
        rfl
      obtain ⟨bb, hbb, hrest⟩ := hno hev
      rw [critVals_ok hE (by rw [e4]; exact hI.l4)]
      simp only [hbb]
      exact ⟨s2, bb, x, rfl, hrest⟩

/-! ## The loops -/

/-- The early stopping rule has not fired so far. -/
def Quiet (E : Env W B P) (l : List ℚ) : Prop := ∀ p, p <+: l → ¬ Triggers E p

/-- The early stopping rule fires now, and did not before. -/
def FirstStop (E : Env W B P) (l : List ℚ) : Prop := Triggers E l ∧ ∀ p, p <+: l → p ≠ l → ¬ Triggers E p

theorem quiet_step {E : Env W B P} {l l' : List ℚ} {stop : Bool} (hq : Quiet E l) (hs : stop = true ↔ Triggers E l')
    (h : l' = l ∨ ∃ v, l' = l ++ [v]) : (stop = false → Quiet E l') ∧ (stop = true → FirstStop E l') := by
  have hpre : ∀ p, p <+: l' → p ≠ l' → ¬ Triggers E p := by
    intro p hp hne
    rcases h with rfl | ⟨v, rfl⟩
    · exact hq p hp
    · rcases List.prefix_concat_iff.1 hp with rfl | hp
      · exact absurd (by simp) hne
      · exact hq p hp
  constructor
  · intro hf p hp
    by_cases hpl : p = l'
    · subst hpl; intro ht; rw [hs.2 ht] at hf; simp at hf
    · exact hpre p hp hpl
  · intro ht
    exact ⟨hs.1 ht, hpre⟩

theorem runBatches_spec {E : Env W B P} {sizes : List Nat} (hE : E.Ok sizes) (save : W → S) (epoch : Nat) (blt : Option (Ckpt S)) (bs : List B)
    (st : St W S) (hI : Inv E blt st) (hq : Quiet E (critOf E st.hist)) (hb : ∀ b ∈ bs, 0 < E.size b) :
    ∃ st' stop xs, runBatches E save epoch st bs = .ok (st', stop) ∧ Inv E blt st' ∧ xs.length ≤ bs.length ∧ (bs ≠ [] → xs ≠ []) ∧
      st'.step = st.step + xs.length ∧ st'.losses = st.losses ++ (bs.map E.size).zip xs ∧ st'.hist.trainCosts = st.hist.trainCosts ++ xs ∧
      st'.hist.trainEpochCosts = st.hist.trainEpochCosts ∧ st'.hist.nEpoch = st.hist.nEpoch ∧ st'.modelLt = st.modelLt ∧
      (stop = false → xs.length = bs.length ∧ Quiet E (critOf E st'.hist)) ∧ (stop = true → FirstStop E (critOf E st'.hist)) := by
  induction bs generalizing st with
  | nil => exact ⟨st, false, [], rfl, hI, by simp, by simp, by simp, by simp, by simp, rfl, rfl, rfl, fun _ => ⟨rfl, hq⟩, by simp⟩
  | cons b bs ih =>
    obtain ⟨s1, stop, x, h1, h2, h3, h4, h5, h6, h7, h8, h9, h10⟩ := batchStep_spec hE save epoch st b blt hI (hb b (by simp))
    obtain ⟨q1, q2⟩ := quiet_step hq h9 h10
    rw [runBatches, h1]
    simp only [bind, Except.bind]
    cases hst : stop with
    | true =>
      simp only [if_true]
      exact ⟨s1, true, [x], rfl, h2, by simp, by simp, by simp [h3], by rw [h4]; simp, h5, h6, h7, h8, by simp, fun _ => q2 hst⟩
    | false =>
      simp only [Bool.false_eq_true, if_false]
      obtain ⟨s2, stop2, xs, g1, g2, g3, g4, g5, g6, g7, g8, g9, g10, g11, g12⟩ := ih s1 h2 (q1 hst) (fun y hy => hb y (by simp [hy]))
      refine ⟨s2, stop2, x :: xs, g1, g2, by simp; omega, by simp, by rw [g5, h3]; simp; omega, by rw [g6, h4]; simp, by rw [g7, h5]; simp,
        by rw [g8, h6], by rw [g9, h7], by rw [g10, h8], ?_, g12⟩
      intro hf
      exact ⟨by simp [(g11 hf).1], (g11 hf).2⟩

/-- The sizes and losses of the steps of epoch `i` (counted from 0), when a full epoch has batches of the given sizes. -/
def epochPairs (sizes : List Nat) (costs : List ℚ) (i : Nat) : List (Nat × ℚ) := sizes.zip (costs.drop (i * sizes.length))

/-- `c` is the mean of the losses of epoch `i`, weighted by the sizes of the batches. -/
def IsEpochMean (sizes : List Nat) (costs : List ℚ) (i : Nat) (c : ℚ) : Prop :=
  0 < ((epochPairs sizes costs i).map (·.1)).sum ∧
  c * (((epochPairs sizes costs i).map (·.1)).sum : Nat) = ((epochPairs sizes costs i).map (fun p => (p.1 : ℚ) * p.2)).sum

theorem epochStep_spec {E : Env W B P} {sizes : List Nat} (hE : E.Ok sizes) (save : W → S) (epoch : Nat) (blt : Option (Ckpt S))
    (st : St W S) (hI : Inv E blt st) (hq : Quiet E (critOf E st.hist)) :
    ∃ st' stop xs c, epochStep E save epoch st = .ok (st', stop) ∧ Inv E blt st' ∧ 0 < xs.length ∧ xs.length ≤ sizes.length ∧
      st'.step = st.step + xs.length ∧ st'.hist.trainCosts = st.hist.trainCosts ++ xs ∧
      st'.hist.trainEpochCosts = st.hist.trainEpochCosts ++ [c] ∧ st'.hist.nEpoch = st.hist.nEpoch + 1 ∧
      st'.modelLt = some ⟨epoch, st'.step, st'.hist, save st'.world⟩ ∧
      0 < ((sizes.zip xs).map (·.1)).sum ∧
      c * (((sizes.zip xs).map (·.1)).sum : Nat) = ((sizes.zip xs).map (fun p => (p.1 : ℚ) * p.2)).sum ∧
      (stop = false → xs.length = sizes.length ∧ Quiet E (critOf E st'.hist)) ∧ (stop = true → FirstStop E (critOf E st'.hist)) := by
  have hsz := hE.train st.world
  have hne : (E.trainData st.world).1 ≠ [] := by
    intro e; rw [e] at hsz; exact hE.ne (by simpa using hsz.symm)
  have hI' : Inv E blt { st with world := (E.trainData st.world).2, losses := [] } :=
    ⟨hI.l1, hI.l2, hI.l3, hI.l4, hI.vr, hI.tr, by simp, hI.tc, hI.nt, hI.te, hI.vc, hI.ve, hI.b0, hI.b1⟩
  obtain ⟨s1, stop, xs, h1, h2, h3, h4, h5, h6, h7, h8, h9, h10, h11, h12⟩ := runBatches_spec hE save epoch blt (E.trainData st.world).1
    { st with world := (E.trainData st.world).2, losses := [] } hI' hq
    (fun b hb => hE.pos _ (by rw [← hsz]; exact List.mem_map_of_mem hb))
  rw [hsz, List.nil_append] at h6
  have hlen : (E.trainData st.world).1.length = sizes.length := by rw [← hsz]; simp
  have hxs := h4 hne
  have hx0 : 0 < xs.length := List.length_pos_of_ne_nil hxs
  have hzn : sizes.zip xs ≠ [] := by
    intro e
    have h0 := List.length_pos_of_ne_nil hE.ne
    have := congrArg List.length e
    rw [List.length_zip, List.length_nil] at this
    omega
  have hzp : ∀ p ∈ sizes.zip xs, 0 < p.1 := by
    intro p hp; exact hE.pos _ (List.of_mem_zip hp).1
  obtain ⟨c, hc1, hc2⟩ := weightedMean_ok hzn hzp
  unfold epochStep
  simp only [h1, bind, Except.bind, h6, hc1]
  refine ⟨_, stop, xs, c, rfl, ⟨h2.l1, h2.l2, h2.l3, h2.l4, h2.vr, h2.tr, hzp, h2.tc, h2.nt, h2.te, h2.vc, h2.ve, h2.b0, h2.b1⟩,
    hx0, by omega, h5, h7, by rw [h8], by rw [h9], by first | rfl | (unfold mkCkpt; rfl), sum_pos_of hzn hzp, hc2, by rw [← hlen]; exact h11, h12⟩

theorem zip_append_left_le {α β : Type} (l : List α) (m n : List β) (h : l.length ≤ m.length) : l.zip (m ++ n) = l.zip m := by
  induction l generalizing m with
  | nil => simp
  | cons a l ih =>
    cases m with
    | nil => simp at h
    | cons b m => simp at h; simp [ih m h]

theorem runEpochs_spec {E : Env W B P} {sizes : List Nat} (hE : E.Ok sizes) (save : W → S) (blt : Option (Ckpt S)) (n i : Nat)
    (st : St W S) (hI : Inv E blt st) (hq : Quiet E (critOf E st.hist)) (hstep : st.step = i * sizes.length)
    (hc : st.hist.trainEpochCosts.length = i) (hn : st.hist.nEpoch = i)
    (hm : ∀ (j : Nat) (c : ℚ), st.hist.trainEpochCosts[j]? = some c → IsEpochMean sizes st.hist.trainCosts j c)
    (hlt : 0 < i → st.modelLt = some ⟨i, st.step, st.hist, save st.world⟩) :
    ∃ st' k, runEpochs E save n (i + 1) st = .ok st' ∧ Inv E blt st' ∧ i ≤ k ∧ k ≤ i + n ∧ (0 < n → i < k) ∧
      st'.hist.trainEpochCosts.length = k ∧ st'.hist.nEpoch = k ∧ st'.step ≤ k * sizes.length ∧ (0 < k → (k - 1) * sizes.length < st'.step) ∧
      (∀ (j : Nat) (c : ℚ), st'.hist.trainEpochCosts[j]? = some c → IsEpochMean sizes st'.hist.trainCosts j c) ∧
      (0 < k → st'.modelLt = some ⟨k, st'.step, st'.hist, save st'.world⟩) ∧
      (k = i + n ∧ st'.step = k * sizes.length ∧ Quiet E (critOf E st'.hist) ∨ FirstStop E (critOf E st'.hist)) := by
  have hpos : 0 < sizes.length := List.length_pos_of_ne_nil hE.ne
  induction n generalizing i st with
  | zero =>
    refine ⟨st, i, rfl, hI, le_refl _, by omega, by simp, hc, hn, by omega, ?_, hm, hlt, .inl ⟨rfl, hstep, hq⟩⟩
    intro h0
    rw [hstep]
    exact Nat.mul_lt_mul_of_pos_right (by omega) hpos
  | succ n ih =>
    obtain ⟨s1, stop, xs, c, h1, h2, h3, h4, h5, h6, h7, h8, h9, h10, h11, h12, h13⟩ := epochStep_spec hE save (i + 1) blt st hI hq
    have htc : st.hist.trainCosts.length = i * sizes.length := by rw [hI.tc, hstep]
    have hm1 : ∀ (j : Nat) (c : ℚ), s1.hist.trainEpochCosts[j]? = some c → IsEpochMean sizes s1.hist.trainCosts j c := by
      intro j d hd
      rw [h7] at hd
      rw [h6]
      by_cases hj : j < i
      · rw [List.getElem?_append_left (by omega)] at hd
        have := hm j d hd
        unfold IsEpochMean epochPairs at *
        have hle : j * sizes.length + sizes.length ≤ i * sizes.length := by
          have := Nat.mul_le_mul_right sizes.length (by omega : j + 1 ≤ i)
          rw [Nat.add_mul] at this; omega
        rw [List.drop_append_of_le_length (by omega), zip_append_left_le _ _ _ (by simp; omega)]
        exact this
      · have hj2 : j = i := by
          have := (List.getElem?_eq_some_iff.1 hd).1
          simp [hc] at this; omega
        subst hj2
        rw [List.getElem?_append_right (by omega), hc] at hd
        simp at hd
        subst hd
        unfold IsEpochMean epochPairs
        rw [← htc, List.drop_left']
        · exact ⟨h10, h11⟩
        · rfl
    rw [runEpochs, h1]
    simp only [bind, Except.bind]
    have hmul : (i + 1) * sizes.length = i * sizes.length + sizes.length := by rw [Nat.add_mul]; omega
    cases hst : stop with
    | true =>
      simp only [if_true]
      refine ⟨s1, i + 1, rfl, h2, by omega, by omega, by omega, by rw [h7]; simp [hc], by rw [h8, hn], by rw [h5, hstep, hmul]; omega, ?_, hm1,
        fun _ => h9, .inr (h13 hst)⟩
      intro _
      rw [h5, hstep]; simp; omega
    | false =>
      simp only [Bool.false_eq_true, if_false]
      obtain ⟨g1, g2⟩ := h12 hst
      obtain ⟨s2, k, k1, k2, k3, k4, k5, k6, k7, k8, k9, k10, k11, k12⟩ := ih (i + 1) s1 h2 g2 (by rw [h5, hstep, hmul, g1]) (by rw [h7]; simp [hc])
        (by rw [h8, hn]) hm1 (fun _ => h9)
      exact ⟨s2, k, k1, k2, by omega, by omega, by omega, k6, k7, k8, k9, k10, k11, by rcases k12 with ⟨a, b⟩ | a; exact .inl ⟨by omega, b⟩; exact .inr a⟩

theorem inv_fresh {E : Env W B P} {sizes : List Nat} (hE : E.Ok sizes) (w : W) (mlt blt : Option (Ckpt S)) :
    Inv E blt (freshSt E w mlt blt) ∧ critOf E (freshSt E w mlt blt).hist = [] := by
  have hcr : critOf E (freshSt E w mlt blt).hist = [] := by
    unfold critOf
    cases hc : E.criterion with
    | none => rfl
    | some i =>
      have := hE.crit i (by simp [hc])
      simp [freshSt, List.getElem?_replicate, this]
  refine ⟨⟨by simp [freshSt], by simp [freshSt], by simp [freshSt], by simp [freshSt], ?_, ?_, by simp [freshSt], rfl, rfl, ?_, ?_, ?_, fun _ => ⟨rfl, rfl⟩, fun h => absurd hcr h⟩, hcr⟩
  all_goals simp [freshSt, evals]

/-- **C39.** `fit` on a new trainer, for any number of epochs `≥ 1`, any datasets and models, any evaluation frequency:

* it succeeds and records one loss per training step;
* either it makes `epochs` passes over the training data, that is `epochs * batches_per_epoch` steps, and the early stopping
  rule never fired; or it stops at the first step at which the rule fires;
* one epoch cost per epoch begun, which is the mean of the losses of the epoch weighted by the batch sizes;
* one validation cost and one value of each metric per `evalStep` steps;
* `model.lt` has the final state, with the number of the last epoch;
* `best_model.lt` is untouched if there was no evaluation, and otherwise belongs to the first evaluation at which the best value
  of the criterion was seen. -/
theorem C39_fit {E : Env W B P} {sizes : List Nat} (hE : E.Ok sizes) (save : W → S) (epochs : Nat) (he : 0 < epochs) (w : W)
    (mlt blt : Option (Ckpt S)) :
    ∃ r k, fit E save 1 epochs (freshSt E w mlt blt) = .ok r ∧ 0 < k ∧ k ≤ epochs ∧
      (k = epochs ∧ r.step = epochs * sizes.length ∧ Quiet E (critOf E r.hist) ∨ FirstStop E (critOf E r.hist)) ∧
      (k - 1) * sizes.length < r.step ∧ r.step ≤ k * sizes.length ∧ r.hist.trainCosts.length = r.step ∧
      r.hist.trainEpochCosts.length = k ∧
      (∀ (j : Nat) (c : ℚ), r.hist.trainEpochCosts[j]? = some c → IsEpochMean sizes r.hist.trainCosts j c) ∧
      r.hist.valCosts.length = (if E.valData.isSome then r.step / E.evalStep else 0) ∧
      r.hist.valEval.length = E.metrics.length ∧
      (∀ l ∈ r.hist.valEval, l.length = if E.valData.isSome then r.step / E.evalStep else 0) ∧
      r.hist.trainEval.length = E.metrics.length ∧
      (∀ l ∈ r.hist.trainEval, l.length = if E.evalOnTrain then r.step / E.evalStep else 0) ∧
      r.modelLt = some ⟨k, r.step, r.hist, save r.world⟩ ∧
      (critOf E r.hist = [] → r.bestLt = blt) ∧ (critOf E r.hist ≠ [] → BestSaved E r) := by
  obtain ⟨hI, hcr⟩ := inv_fresh hE w mlt blt
  obtain ⟨r, k, h1, h2, h3, h4, h5, h6, h7, h8, h9, h10, h11, h12⟩ := runEpochs_spec hE save blt epochs 0 (freshSt E w mlt blt) hI
    (by rw [hcr]; intro p hp; rw [List.prefix_nil.1 hp]; exact not_triggers_nil E) (by simp [freshSt]) rfl rfl (by simp [freshSt]) (by simp)
  have hk := h5 he
  refine ⟨r, k, ?_, by omega, by omega, ?_, h9 hk, h8, h2.tc, h6, h10, h2.vc, h2.l4, h2.ve, h2.l3, h2.te, h11 hk, fun h => (h2.b0 h).2, fun h => (h2.b1 h).1⟩
  · unfold fit
    have e : ({ freshSt E w mlt blt with best := none } : St W S) = freshSt E w mlt blt := rfl
    rw [e, Nat.add_sub_cancel, show (1 : Nat) = 0 + 1 from rfl, h1]
    simp only [bind, Except.bind]
    have hs := h9 hk
    rw [if_neg (by rw [h7, h2.nt]; omega)]
  · rcases h12 with ⟨a, b, c⟩ | a
    · exact .inl ⟨by omega, by rw [b, a]; simp, c⟩
    · exact .inr a

end Train
end Lambeq
