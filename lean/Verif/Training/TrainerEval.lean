import Verif.Training.TrainerProps

/-!
# C39: what an evaluation records; failures; examples
-/

namespace Lambeq
namespace Train
set_option linter.unusedSimpArgs false
set_option linter.unusedVariables false

variable {W B P S : Type}

/-- `c` is the mean of the second components weighted by the first ones. -/
def IsMean (xs : List (Nat × ℚ)) (c : ℚ) : Prop :=
  (xs.map (·.1)).sum ≠ 0 ∧ c * (((xs.map (·.1)).sum : Nat) : ℚ) = (xs.map (fun p => (p.1 : ℚ) * p.2)).sum

theorem weightedMean_iff (xs : List (Nat × ℚ)) (c : ℚ) : weightedMean xs = .ok c ↔ IsMean xs c := by
  unfold weightedMean IsMean
  simp only
  by_cases h : (xs.map (·.1)).sum = 0
  · rw [if_pos h]; simp [h]
  · rw [if_neg h]
    have h' : (((xs.map (·.1)).sum : Nat) : ℚ) ≠ 0 := by exact_mod_cast h
    constructor
    · intro e
      have := Except.ok.inj e
      exact ⟨h, by rw [← this]; exact div_mul_cancel₀ _ h'⟩
    · rintro ⟨_, e⟩
      rw [← e, mul_div_cancel_right₀ _ h']

theorem mapM_ok_get {α β : Type} {f : α → Except PyErr β} {l : List α} {r : List β} (h : l.mapM f = .ok r) :
    r.length = l.length ∧ ∀ (i : Nat) (a : α), l[i]? = some a → ∃ b, r[i]? = some b ∧ f a = .ok b := by
  induction l generalizing r with
  | nil => cases h; simp
  | cons x l ih =>
    rw [List.mapM_cons] at h
    cases hx : f x with
    | error e => rw [hx] at h; cases h
    | ok y =>
      cases hl : l.mapM f with
      | error e => rw [hx, hl] at h; cases h
      | ok ys =>
        rw [hx, hl] at h
        cases h
        obtain ⟨h1, h2⟩ := ih hl
        refine ⟨by simp [h1], ?_⟩
        intro i a hi
        cases i with
        | zero => simp at hi; subst hi; exact ⟨y, by simp, hx⟩
        | succ i => simp at hi; simpa using h2 i a hi

theorem summarize_get {run : List (List (Nat × ℚ))} {res res' : List (List ℚ)} (h : summarize run res = .ok res') (i : Nat)
    (r : List (Nat × ℚ)) (l : List ℚ) (hr : run[i]? = some r) (hl : res[i]? = some l) : ∃ m, res'[i]? = some (l ++ [m]) ∧ IsMean r m := by
  unfold summarize at h
  cases hm : run.mapM weightedMean with
  | error e => rw [hm] at h; cases h
  | ok ms =>
    rw [hm] at h
    cases h
    obtain ⟨m, h1, h2⟩ := (mapM_ok_get hm).2 i r hr
    exact ⟨m, by simp [List.getElem?_zipWith, hl, h1], (weightedMean_iff _ _).1 h2⟩

/-- The loop over the validation batches when validating changes nothing. -/
theorem valLoop_pure (E : Env W B P) (hp : ∀ w b, (E.valid w b).1 = w) (bs : List B) (st : St W S) (ls : List (Nat × ℚ)) :
    (valLoop E bs st ls).1.world = st.world ∧ (valLoop E bs st ls).2 = ls ++ bs.map (fun b => (E.size b, (E.valid st.world b).2.2)) ∧
    (valLoop E bs st ls).1.hist = { st.hist with nVal := st.hist.nVal + bs.length } ∧
    ∀ (i : Nat) (f : P → B → ℚ) (r : List (Nat × ℚ)), E.metrics[i]? = some f → st.valRun[i]? = some r →
      (valLoop E bs st ls).1.valRun[i]? = some (r ++ bs.map (fun b => (E.size b, f (E.valid st.world b).2.1 b))) := by
  induction bs generalizing st ls with
  | nil => exact ⟨rfl, by simp [valLoop], rfl, fun i f r _ hr => by simp [valLoop, hr]⟩
  | cons b bs ih =>
    obtain ⟨h1, h2, h3, h4⟩ := ih { st with world := (E.valid st.world b).1, valRun := pushMetrics E st.valRun (E.valid st.world b).2.1 b, hist := { st.hist with nVal := st.hist.nVal + 1 } } (ls ++ [(E.size b, (E.valid st.world b).2.2)])
    simp only [hp] at h1 h2 h3 h4
    rw [valLoop]
    simp only [hp]
    refine ⟨h1, by rw [h2]; simp, by rw [h3]; simp; omega, ?_⟩
    intro i f r hf hr
    rw [h4 i f (r ++ [(E.size b, f (E.valid st.world b).2.1 b)]) hf (by simp [pushMetrics, List.getElem?_zipWith, hf, hr])]
    simp

/-- **C39 (an evaluation).** Suppose validating a batch and iterating over the validation data do not change the model, and no
validation results are left over (true between steps, see `C39_fit`). After any training step, with `w` the state of the model
after it: if the number of steps is a multiple of `evalStep`, the validation cost appended is the mean over all validation
batches of their losses under `w`, weighted by size, and likewise one value for every metric; otherwise nothing is appended. The
weights are those after the training step. -/
theorem C39_evaluation (E : Env W B P) (save : W → S) (epoch : Nat) (st st' : St W S) (b : B) (stop : Bool) (data : W → List B × W)
    (hd : E.valData = some data) (hp : ∀ w b, (E.valid w b).1 = w) (hdp : ∀ w, (data w).2 = w)
    (hvr : st.valRun = E.metrics.map (fun _ => []))
    (h : batchStep E save epoch st b = .ok (st', stop)) :
    let w := (E.train st.world b).1
    st'.world = w ∧ st'.step = st.step + 1 ∧
    (st'.step % E.evalStep = 0 →
      (∃ c, st'.hist.valCosts = st.hist.valCosts ++ [c] ∧ IsMean ((data w).1.map (fun b => (E.size b, (E.valid w b).2.2))) c) ∧
      ∀ (i : Nat) (f : P → B → ℚ) (l : List ℚ), E.metrics[i]? = some f → st.hist.valEval[i]? = some l →
        ∃ m, st'.hist.valEval[i]? = some (l ++ [m]) ∧ IsMean ((data w).1.map (fun b => (E.size b, f (E.valid w b).2.1 b))) m) ∧
    (st'.step % E.evalStep ≠ 0 → st'.hist.valCosts = st.hist.valCosts ∧ st'.hist.valEval = st.hist.valEval ∧ st'.bestLt = st.bestLt) := by
  intro w
  unfold batchStep at h
  obtain ⟨s1, h1, h⟩ : ∃ s1, evalTrain E (trainOne E st b) = .ok s1 ∧ _ := by
    cases hh : evalTrain E (trainOne E st b) with
    | error e => rw [hh] at h; cases h
    | ok s1 => rw [hh] at h; exact ⟨s1, rfl, h⟩
  have e1 : s1.world = w ∧ s1.step = st.step + 1 ∧ s1.valRun = st.valRun ∧ s1.hist.valCosts = st.hist.valCosts ∧
      s1.hist.valEval = st.hist.valEval ∧ s1.bestLt = st.bestLt := by
    unfold evalTrain at h1
    split at h1
    · split at h1
      · cases h1
      · split at h1
        · cases hs : summarize (trainOne E st b).trainRun (trainOne E st b).hist.trainEval with
          | error e => rw [hs] at h1; cases h1
          | ok te => rw [hs] at h1; cases h1; exact ⟨rfl, rfl, rfl, rfl, rfl, rfl⟩
        · cases h1; exact ⟨rfl, rfl, rfl, rfl, rfl, rfl⟩
    · cases h1; exact ⟨rfl, rfl, rfl, rfl, rfl, rfl⟩
  obtain ⟨s2, h2, h⟩ : ∃ s2, evalVal E save epoch s1 = .ok s2 ∧ _ := by
    simp only [bind, Except.bind] at h
    cases hh : evalVal E save epoch s1 with
    | error e => rw [hh] at h; cases h
    | ok s2 => rw [hh] at h; exact ⟨s2, rfl, h⟩
  have es : st' = s2 := by
    simp only at h
    cases hc : critVals E s2.hist with
    | error e => rw [hc] at h; cases h
    | ok cv =>
      simp only [hc] at h
      cases hs : earlyStop cv E.esInterval E.minimize with
      | error e => rw [hs] at h; cases h
      | ok sb => simp only [hs] at h; injection h with h; injection h with h _; exact h.symm
  subst es
  clear h h1
  obtain ⟨a1, a2, a3, a4, a5, a6⟩ := e1
  unfold evalVal at h2
  rw [hd] at h2
  simp only at h2
  split at h2
  · cases h2
  · split at h2
    · rename_i hz hm
      unfold validate at h2
      obtain ⟨b1, b2, b3, b4⟩ := valLoop_pure E hp (data s1.world).1 { s1 with world := (data s1.world).2 } []
      have hst := (show (valLoop E (data s1.world).1 { s1 with world := (data s1.world).2 } []).1.step = s1.step ∧
          (valLoop E (data s1.world).1 { s1 with world := (data s1.world).2 } []).1.bestLt = s1.bestLt by
        generalize hg : ({ s1 with world := (data s1.world).2 } : St W S) = sg
        have hg1 : sg.step = s1.step := by rw [← hg]
        have hg2 : sg.bestLt = s1.bestLt := by rw [← hg]
        rw [← hg1, ← hg2]
        clear hg hg1 hg2 b1 b2 b3 b4 h2
        generalize ([] : List (Nat × ℚ)) = ls
        induction (data s1.world).1 generalizing sg ls with
        | nil => exact ⟨rfl, rfl⟩
        | cons x xs ih => rw [valLoop]; exact ih _ _)
      simp only [hdp, List.nil_append] at b1 b2 b3 b4 hst h2
      generalize hv : valLoop E (data s1.world).1 { s1 with world := s1.world } [] = v at *
      obtain ⟨v1, v2⟩ := v
      simp only [bind, Except.bind] at b1 b2 b3 b4 h2 hst
      cases hw : weightedMean v2 with
      | error e => rw [hw] at h2; cases h2
      | ok c =>
        simp only [hw] at h2
        cases hs : summarize v1.valRun v1.hist.valEval with
        | error e => rw [hs] at h2; cases h2
        | ok ve =>
          simp only [hs] at h2
          have hfin : st'.world = s1.world ∧ st'.step = s1.step ∧ st'.hist.valCosts = v1.hist.valCosts ++ [c] ∧ st'.hist.valEval = ve := by
            split at h2
            · cases h2
            · split at h2
              · cases h2
              · split at h2
                · split at h2 <;> (injection h2 with h2; subst h2; exact ⟨b1, hst.1, rfl, rfl⟩)
                · split at h2 <;> (injection h2 with h2; subst h2; exact ⟨b1, hst.1, rfl, rfl⟩)
          obtain ⟨f1, f2, f3, f4⟩ := hfin
          refine ⟨by rw [f1, a1], by rw [f2, a2], fun _ => ⟨⟨c, by rw [f3, b3, ← a4], ?_⟩, ?_⟩, fun hne => absurd (by rw [f2]; exact hm) hne⟩
          · rw [← a1, ← b2]; exact (weightedMean_iff _ _).1 hw
          · intro i f l hf hl
            rw [f4, ← a1]
            have hr := b4 i f [] hf (by rw [a3, hvr]; simp [List.getElem?_replicate, (List.getElem?_eq_some_iff.1 hf).1])
            rw [List.nil_append] at hr
            exact summarize_get hs i _ l hr (by rw [b3]; simp [a5, hl])
    · rename_i hz hm
      cases h2
      exact ⟨a1, a2, fun h => absurd h hm, fun _ => ⟨a4, a5, a6⟩⟩

/-- **C39 (without early stopping).** -/
theorem C39_no_early_stopping {E : Env W B P} {sizes : List Nat} (hE : E.Ok sizes) (hes : E.esInterval = none) (save : W → S) (epochs : Nat)
    (he : 0 < epochs) (w : W) (mlt blt : Option (Ckpt S)) :
    ∃ r, fit E save 1 epochs (freshSt E w mlt blt) = .ok r ∧ r.step = epochs * sizes.length ∧
      r.hist.trainCosts.length = epochs * sizes.length ∧ r.hist.trainEpochCosts.length = epochs ∧
      r.hist.valCosts.length = (if E.valData.isSome then epochs * sizes.length / E.evalStep else 0) := by
  obtain ⟨r, k, h1, h2, h3, h4, h5, h6, h7, h8, h9, h10, h11⟩ := C39_fit hE save epochs he w mlt blt
  rcases h4 with ⟨a, b, c⟩ | ⟨⟨k', _, e, _⟩, _⟩
  · exact ⟨r, h1, b, by rw [h7, b], by rw [h8, a], by rw [h10, b]⟩
  · rw [hes] at e; simp at e

/-- **C39 (refuted).** `fit` does not accept every number of epochs: with `epochs = 0` it fails on the summary, with
ZeroDivisionError. -/
theorem C39_refuted_zero_epochs (E : Env W B P) (save : W → S) (w : W) (mlt blt : Option (Ckpt S)) :
    fit E save 1 0 (freshSt E w mlt blt) = .error .zeroDivisionError := by
  rfl

/-- **C39 (refuted).** An evaluation interval of 0 does not mean `never`: the first step fails with ZeroDivisionError. -/
theorem C39_refuted_zero_interval (E : Env W B P) (save : W → S) (w : W) (mlt blt : Option (Ckpt S)) (epochs : Nat) (he : 0 < epochs)
    (h0 : E.evalStep = 0) (hv : E.evalOnTrain = true ∨ E.valData.isSome) (hb : (E.trainData w).1 ≠ []) :
    fit E save 1 epochs (freshSt E w mlt blt) = .error .zeroDivisionError := by
  obtain ⟨n, rfl⟩ : ∃ n, epochs = n + 1 := ⟨epochs - 1, by omega⟩
  have key : ∀ (st : St W S) b, batchStep E save 1 st b = .error .zeroDivisionError := by
    intro st b
    unfold batchStep
    by_cases ht : E.evalOnTrain = true
    · simp [evalTrain, ht, h0, bind, Except.bind]
    · obtain ⟨d, hd⟩ := Option.isSome_iff_exists.1 (hv.resolve_left ht)
      simp [evalTrain, ht, evalVal, hd, h0, bind, Except.bind]
  unfold fit
  rw [show n + 1 + 1 - 1 = n + 1 by omega, runEpochs]
  have : epochStep E save 1 { freshSt E w mlt blt with best := none } = .error .zeroDivisionError := by
    unfold epochStep
    cases hbs : (E.trainData w).1 with
    | nil => exact absurd hbs hb
    | cons x xs =>
      have e : (E.trainData (freshSt E w mlt blt).world).1 = x :: xs := hbs
      simp only [e, runBatches, key, bind, Except.bind]
  rw [this]
  rfl

/-! ## Examples -/

/-- Batches are lists of numbers; the model is one number, its loss on a batch the distance to the first number of the batch;
training moves it by one. -/
def demoEnv (es : Option Nat) : Env Int (List Int) Int where
  trainData := fun w => ([[3, 4], [5]], w)
  valData := some (fun w => ([[4, 4], [6]], w))
  size := List.length
  train := fun w b => (w + 1, w, ((b.headD 0 - w) ^ 2 : Int))
  valid := fun w b => (w, w, ((b.headD 0 - w) ^ 2 : Int))
  metrics := [fun y b => ((y - b.headD 0 : Int) : ℚ)]
  evalOnTrain := true
  evalStep := 2
  criterion := none
  esInterval := es
  minimize := true

example (es : Option Nat) : (demoEnv es).Ok [2, 1] where
  train := fun w => rfl
  pos := by simp
  ne := by simp
  val := by simp [demoEnv]
  step := by simp [demoEnv]
  crit := by simp [demoEnv]

example : (fit (demoEnv none) (fun w => w) 1 6 (freshSt (demoEnv none) 0 none none)).toOption.map
    (fun r => (r.step, r.hist.valCosts, r.hist.trainEpochCosts.length, r.bestLt.map (·.step), r.modelLt.map (·.world))) =
    some (12, [8, 4/3, 8/3, 12, 88/3, 164/3], 6, some 4, some 12) := by decide +kernel

example : (fit (demoEnv (some 2)) (fun w => w) 1 6 (freshSt (demoEnv (some 2)) 0 none none)).toOption.map
    (fun r => (r.step, r.hist.valCosts, r.hist.trainEpochCosts.length, r.bestLt.map (·.step), r.modelLt.map (·.world))) =
    some (8, [8, 4/3, 8/3, 12], 4, some 4, some 8) := by decide +kernel

end Train
end Lambeq
