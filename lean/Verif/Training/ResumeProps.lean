import Verif.Training.TrainerEval

/-!
# C40: resuming from a checkpoint
-/

namespace Lambeq
namespace Train
set_option linter.unusedSimpArgs false
set_option linter.unusedVariables false

variable {W B P S : Type}

/-! ## The tracking of the best model influences nothing else -/

/-- The state without the best criterion value and the file of the best model. -/
def core (st : St W S) : St W S := { st with best := none, bestLt := none }

/-- As `core`, for a state and the early stopping flag. -/
def core2 (r : St W S × Bool) : St W S × Bool := (core r.1, r.2)

theorem core_eq_iff (a b : St W S) : core a = core b ↔ ∃ x y, b = { a with best := x, bestLt := y } := by
  obtain ⟨w, h, s, tr, vr, l, bs, m, bl⟩ := a
  obtain ⟨w', h', s', tr', vr', l', bs', m', bl'⟩ := b
  simp only [core, St.mk.injEq]
  constructor
  · rintro ⟨rfl, rfl, rfl, rfl, rfl, rfl, _, rfl, _⟩
    exact ⟨bs', bl', rfl, rfl, rfl, rfl, rfl, rfl, rfl, rfl, rfl⟩
  · rintro ⟨x, y, rfl, rfl, rfl, rfl, rfl, rfl, _, rfl, _⟩
    simp

theorem core_fields {a b : St W S} (h : core a = core b) : a.hist = b.hist ∧ a.step = b.step ∧ a.world = b.world ∧ a.modelLt = b.modelLt := by
  obtain ⟨x, y, rfl⟩ := (core_eq_iff a b).1 h
  exact ⟨rfl, rfl, rfl, rfl⟩

theorem valLoop_core (E : Env W B P) (bs : List B) (st : St W S) (x : Option ℚ) (y : Option (Ckpt S)) (ls : List (Nat × ℚ)) :
    valLoop E bs { st with best := x, bestLt := y } ls =
      ({ (valLoop E bs st ls).1 with best := x, bestLt := y }, (valLoop E bs st ls).2) := by
  induction bs generalizing st ls with
  | nil => rfl
  | cons b bs ih =>
    rw [valLoop, valLoop]
    exact ih { st with world := (E.valid st.world b).1, valRun := pushMetrics E st.valRun (E.valid st.world b).2.1 b, hist := { st.hist with nVal := st.hist.nVal + 1 } } _

theorem validate_core (E : Env W B P) (save : W → S) (epoch : Nat) (data : W → List B × W) (st : St W S) (x : Option ℚ) (y : Option (Ckpt S)) :
    (validate E save epoch data { st with best := x, bestLt := y }).map core = (validate E save epoch data st).map core := by
  unfold validate
  have h := valLoop_core E (data st.world).1 { st with world := (data st.world).2 } x y []
  simp only at h ⊢
  rw [h]
  generalize valLoop E (data st.world).1 { st with world := (data st.world).2 } [] = v
  obtain ⟨v1, v2⟩ := v
  simp only [bind, Except.bind]
  cases weightedMean v2 with
  | error e => rfl
  | ok c =>
    simp only
    cases summarize v1.valRun v1.hist.valEval with
    | error e => rfl
    | ok ve =>
      simp only
      generalize critVals E { v1.hist with valCosts := v1.hist.valCosts ++ [c], valEval := ve } = cv
      cases cv with
      | error e => rfl
      | ok cv =>
        simp only
        cases cv.getLast? with
        | none => rfl
        | some v => cases x <;> cases v1.best <;> simp only <;> (repeat' (first | rfl | split))

theorem batchStep_core (E : Env W B P) (save : W → S) (epoch : Nat) (st : St W S) (b : B) (x : Option ℚ) (y : Option (Ckpt S)) :
    (batchStep E save epoch { st with best := x, bestLt := y } b).map core2 = (batchStep E save epoch st b).map core2 := by
  unfold batchStep
  have e1 : trainOne E { st with best := x, bestLt := y } b = { trainOne E st b with best := x, bestLt := y } := rfl
  rw [e1]
  generalize trainOne E st b = s1
  have e2 : evalTrain E { s1 with best := x, bestLt := y } = (evalTrain E s1).map (fun s => { s with best := x, bestLt := y }) := by
    unfold evalTrain
    simp only
    split
    · split
      · rfl
      · split
        · cases summarize s1.trainRun s1.hist.trainEval <;> rfl
        · rfl
    · rfl
  rw [e2]
  cases evalTrain E s1 with
  | error e => rfl
  | ok s2 =>
    simp only [Except.map, bind, Except.bind]
    have e3 : (evalVal E save epoch { s2 with best := x, bestLt := y }).map core = (evalVal E save epoch s2).map core := by
      unfold evalVal
      cases E.valData with
      | none => rfl
      | some data =>
        simp only
        split
        · rfl
        · split
          · exact validate_core E save epoch data s2 x y
          · rfl
    cases h1 : evalVal E save epoch { s2 with best := x, bestLt := y } with
    | error e =>
      cases h2 : evalVal E save epoch s2 with
      | error e' => rw [h1, h2] at e3; simpa [Except.map] using e3
      | ok s4 => rw [h1, h2] at e3; simp [Except.map] at e3
    | ok s3 =>
      cases h2 : evalVal E save epoch s2 with
      | error e' => rw [h1, h2] at e3; simp [Except.map] at e3
      | ok s4 =>
        rw [h1, h2] at e3
        have e4 : core s3 = core s4 := by simpa [Except.map] using e3
        have e5 : s3.hist = s4.hist := (core_fields e4).1
        simp only [e5]
        cases critVals E s4.hist with
        | error e => rfl
        | ok cv =>
          simp only
          cases earlyStop cv E.esInterval E.minimize with
          | error e => rfl
          | ok sb => simp [core2, e4]

theorem map_core2_cases {a b : Except PyErr (St W S × Bool)} (h : a.map core2 = b.map core2) :
    (∃ e, a = .error e ∧ b = .error e) ∨ ∃ s t f, a = .ok (s, f) ∧ b = .ok (t, f) ∧ core s = core t := by
  cases a with
  | error e => cases b with
    | error e' => simp [Except.map] at h; exact .inl ⟨e, rfl, by rw [h]⟩
    | ok t => simp [Except.map] at h
  | ok s => cases b with
    | error e' => simp [Except.map] at h
    | ok t =>
      simp [Except.map, core2] at h
      exact .inr ⟨s.1, t.1, s.2, rfl, by rw [h.2], h.1⟩

theorem runBatches_core (E : Env W B P) (save : W → S) (epoch : Nat) (bs : List B) (s t : St W S) (h : core s = core t) :
    (runBatches E save epoch s bs).map core2 = (runBatches E save epoch t bs).map core2 := by
  induction bs generalizing s t with
  | nil => simp [runBatches, Except.map, core2, h]
  | cons b bs ih =>
    obtain ⟨x, y, rfl⟩ := (core_eq_iff s t).1 h
    rw [runBatches, runBatches]
    rcases map_core2_cases (batchStep_core E save epoch s b x y) with ⟨e, h1, h2⟩ | ⟨s1, t1, f, h1, h2, h3⟩
    · rw [h1, h2]
    · rw [h1, h2]
      simp only [bind, Except.bind]
      cases f with
      | true => simp [Except.map, core2, h3]
      | false => simpa using (ih _ _ h3).symm

theorem epochStep_core (E : Env W B P) (save : W → S) (epoch : Nat) (s t : St W S) (h : core { s with losses := [] } = core { t with losses := [] }) :
    (epochStep E save epoch s).map core2 = (epochStep E save epoch t).map core2 := by
  have hw : s.world = t.world := (core_fields h).2.2.1
  unfold epochStep
  rw [hw]
  have h' : core { s with world := (E.trainData t.world).2, losses := [] } = core { t with world := (E.trainData t.world).2, losses := [] } := by
    obtain ⟨x, y, e⟩ := (core_eq_iff _ _).1 h
    rw [core_eq_iff]
    refine ⟨x, y, ?_⟩
    have := congrArg (fun (u : St W S) => { u with world := (E.trainData t.world).2 }) e
    exact this
  rcases map_core2_cases (runBatches_core E save epoch (E.trainData t.world).1 _ _ h') with ⟨e, h1, h2⟩ | ⟨s1, t1, f, h1, h2, h3⟩
  · simp only [h1, h2, bind, Except.bind]
  · simp only [h1, h2, bind, Except.bind]
    obtain ⟨x, y, rfl⟩ := (core_eq_iff _ _).1 h3
    simp only
    cases weightedMean s1.losses with
    | error e => rfl
    | ok c => rfl

theorem runEpochs_core (E : Env W B P) (save : W → S) (n epoch : Nat) (s t : St W S) (h : core { s with losses := [] } = core { t with losses := [] }) :
    (runEpochs E save n epoch s).map (fun r => core { r with losses := [] }) = (runEpochs E save n epoch t).map (fun r => core { r with losses := [] }) := by
  induction n generalizing epoch s t with
  | zero => simp [runEpochs, Except.map, h]
  | succ n ih =>
    rw [runEpochs, runEpochs]
    rcases map_core2_cases (epochStep_core E save epoch s t h) with ⟨e, h1, h2⟩ | ⟨s1, t1, f, h1, h2, h3⟩
    · rw [h1, h2]
    · rw [h1, h2]
      have h4 : core { s1 with losses := [] } = core { t1 with losses := [] } := by
        obtain ⟨x, y, rfl⟩ := (core_eq_iff _ _).1 h3
        rfl
      simp only [bind, Except.bind]
      cases f with
      | true => simp [Except.map, h4]
      | false => simpa using ih (epoch + 1) s1 t1 h4

/-! ## Running metrics -/

/-- At an evaluation step, and whenever metrics are not evaluated on the training data, no running metrics are pending. -/
def NoPending (E : Env W B P) (st : St W S) : Prop :=
  st.trainRun.length = E.metrics.length ∧ (E.evalOnTrain = false ∨ st.step % E.evalStep = 0 → ∀ r ∈ st.trainRun, r = [])

theorem evalVal_trainRun {E : Env W B P} {save : W → S} {epoch : Nat} {s t : St W S} (h : evalVal E save epoch s = .ok t) :
    t.trainRun = s.trainRun ∧ t.step = s.step ∧ t.modelLt = s.modelLt := by
  have hv : ∀ bs (u : St W S) ls, (valLoop E bs u ls).1.trainRun = u.trainRun ∧ (valLoop E bs u ls).1.step = u.step ∧ (valLoop E bs u ls).1.modelLt = u.modelLt := by
    intro bs
    induction bs with
    | nil => intro u ls; exact ⟨rfl, rfl, rfl⟩
    | cons b bs ih => intro u ls; rw [valLoop]; exact ih _ _
  unfold evalVal at h
  cases hd : E.valData with
  | none => rw [hd] at h; cases h; exact ⟨rfl, rfl, rfl⟩
  | some data =>
    rw [hd] at h
    simp only at h
    split at h
    · cases h
    · split at h
      · unfold validate at h
        have hg := hv (data s.world).1 { s with world := (data s.world).2 } []
        simp only [bind, Except.bind] at h
        split at h
        · cases h
        · split at h
          · cases h
          · split at h
            · cases h
            · split at h
              · cases h
              · split at h
                all_goals (split at h <;> (cases h; exact hg))
      · cases h; exact ⟨rfl, rfl, rfl⟩

theorem batchStep_noPending {E : Env W B P} {save : W → S} {epoch : Nat} {s t : St W S} {b : B} {f : Bool} (hs : NoPending E s)
    (h : batchStep E save epoch s b = .ok (t, f)) : NoPending E t ∧ t.modelLt = s.modelLt := by
  unfold batchStep at h
  cases h1 : evalTrain E (trainOne E s b) with
  | error e => rw [h1] at h; cases h
  | ok s1 =>
    simp only [h1, bind, Except.bind] at h
    cases h2 : evalVal E save epoch s1 with
    | error e => rw [h2] at h; cases h
    | ok s2 =>
      have e : t = s2 := by
        simp only [h2] at h
        split at h
        · cases h
        · split at h
          · cases h
          · cases h; rfl
      subst e
      obtain ⟨e1, e2, e3⟩ := evalVal_trainRun h2
      unfold NoPending
      rw [e1, e2, e3]
      have hlen : (trainOne E s b).trainRun.length = E.metrics.length := by
        simp only [trainOne]; split
        · exact pushMetrics_length E _ _ _ hs.1
        · exact hs.1
      unfold evalTrain at h1
      by_cases ht : E.evalOnTrain = true
      · simp only [ht, if_true] at h1
        split at h1
        · cases h1
        · split at h1
          · cases hsum : summarize (trainOne E s b).trainRun (trainOne E s b).hist.trainEval with
            | error e => rw [hsum] at h1; cases h1
            | ok te =>
              rw [hsum] at h1; cases h1
              refine ⟨⟨by simp [hlen], ?_⟩, rfl⟩
              intro _ r hr
              obtain ⟨_, _, rfl⟩ := List.mem_map.1 hr
              rfl
          · rename_i hne
            cases h1
            refine ⟨⟨hlen, ?_⟩, rfl⟩
            rintro (hf | hz)
            · rw [ht] at hf; cases hf
            · exact absurd hz hne
      · simp only [ht, Bool.false_eq_true, if_false] at h1
        cases h1
        refine ⟨⟨hlen, fun _ => ?_⟩, rfl⟩
        simp only [trainOne, ht, Bool.false_eq_true, if_false]
        exact hs.2 (.inl (by simpa using ht))

theorem runBatches_noPending {E : Env W B P} {save : W → S} {epoch : Nat} {bs : List B} {s t : St W S} {f : Bool} (hs : NoPending E s)
    (h : runBatches E save epoch s bs = .ok (t, f)) : NoPending E t ∧ t.modelLt = s.modelLt := by
  induction bs generalizing s with
  | nil => cases h; exact ⟨hs, rfl⟩
  | cons b bs ih =>
    rw [runBatches] at h
    cases h1 : batchStep E save epoch s b with
    | error e => rw [h1] at h; cases h
    | ok r =>
      rw [h1] at h
      simp only [bind, Except.bind] at h
      obtain ⟨s1, f1⟩ := r
      obtain ⟨g1, g2⟩ := batchStep_noPending hs h1
      cases f1 with
      | true => simp only [if_true] at h; cases h; exact ⟨g1, g2⟩
      | false =>
        simp only [Bool.false_eq_true, if_false] at h
        obtain ⟨k1, k2⟩ := ih g1 h
        exact ⟨k1, by rw [k2, g2]⟩

theorem epochStep_noPending {E : Env W B P} {save : W → S} {epoch : Nat} {s t : St W S} {f : Bool} (hs : NoPending E s)
    (h : epochStep E save epoch s = .ok (t, f)) : NoPending E t := by
  unfold epochStep at h
  simp only [bind, Except.bind] at h
  cases h1 : runBatches E save epoch { s with world := (E.trainData s.world).2, losses := [] } (E.trainData s.world).1 with
  | error e => rw [h1] at h; cases h
  | ok r =>
    have := (runBatches_noPending (s := { s with world := (E.trainData s.world).2, losses := [] }) (show NoPending E _ from hs) h1).1
    simp only [h1] at h
    split at h
    · cases h
    · cases h
      exact this

/-- The run of `k + n` epochs goes through the state after `k` epochs, if that run was not stopped early. -/
theorem runEpochs_split {E : Env W B P} {sizes : List Nat} (hE : E.Ok sizes) (save : W → S) (blt : Option (Ckpt S)) (k n e : Nat) (st r : St W S)
    (hI : Inv E blt st) (hq : Quiet E (critOf E st.hist)) (hp : NoPending E st) (h : runEpochs E save k e st = .ok r) (hr : Quiet E (critOf E r.hist)) :
    runEpochs E save (k + n) e st = runEpochs E save n (e + k) r ∧ NoPending E r := by
  induction k generalizing e st with
  | zero => cases h; exact ⟨by simp, hp⟩
  | succ k ih =>
    obtain ⟨s1, stop, xs, c, h1, h2, h3, h4, h5, h6, h7, h8, h9, h10, h11, h12, h13⟩ := epochStep_spec hE save e blt st hI hq
    rw [runEpochs, h1] at h
    rw [show k + 1 + n = (k + n) + 1 by omega, runEpochs, h1]
    simp only [bind, Except.bind] at h ⊢
    cases hs : stop with
    | true =>
      rw [hs] at h
      simp only [if_true] at h
      cases h
      exact absurd (h13 hs).1 (hr _ (List.prefix_refl _))
    | false =>
      rw [hs] at h
      simp only [Bool.false_eq_true, if_false] at h ⊢
      obtain ⟨g1, g2⟩ := ih (e + 1) s1 h2 (h12 hs).2 (epochStep_noPending hp h1) h
      exact ⟨by rw [g1]; congr 1; omega, g2⟩

/-- **C40 (resuming).** Suppose what a checkpoint stores determines the state of the model, optimiser and random generators.
Let a new trainer run `k ≥ 1` epochs, without early stopping having fired. Then `model.lt` holds a checkpoint `c`, and a trainer
created later from `c` (in whatever state `w0` the new process is) that runs up to epoch `k + n` ends exactly as a trainer that
ran `k + n` epochs without interruption: same histories, number of steps, model and `model.lt` (also the same error, had there been one).

Hypothesis `hpend`: metrics are not evaluated on the training data, or epoch `k` ended with an evaluation (always so in epoch mode
with interval 1). The best model is not covered. Both restrictions are necessary, see the refutations below. -/
theorem C40_resume_partial {E : Env W B P} {sizes : List Nat} (hE : E.Ok sizes) (save : W → S) (load : W → S → W) (hls : ∀ w0 w, load w0 (save w) = w)
    (k n : Nat) (hk : 0 < k) (w w0 : W) (mlt blt : Option (Ckpt S)) (r1 : St W S)
    (h1 : fit E save 1 k (freshSt E w mlt blt) = .ok r1) (hq : Quiet E (critOf E r1.hist))
    (hpend : E.evalOnTrain = false ∨ r1.step % E.evalStep = 0) :
    ∃ c r r', r1.modelLt = some c ∧ fit E save 1 (k + n) (freshSt E w mlt blt) = .ok r ∧
      fit E save (resumeSt E load w0 c r1.bestLt).1 (k + n) (resumeSt E load w0 c r1.bestLt).2 = .ok r' ∧
      r'.hist = r.hist ∧ r'.step = r.step ∧ r'.world = r.world ∧ r'.modelLt = r.modelLt := by
  obtain ⟨r1', k', f1, f2, f3, f4, f5, f6, f7, f8, f9, f10, f11, f12, f13, f14, f15, _⟩ := C39_fit hE save k hk w mlt blt
  rw [h1] at f1
  cases f1
  have hkk : k' = k := by
    rcases f4 with ⟨a, _⟩ | ⟨a, _⟩
    · exact a
    · exact absurd a (hq _ (List.prefix_refl _))
  subst hkk
  obtain ⟨r, _, g1, _⟩ := C39_fit hE save (k' + n) (by omega) w mlt blt
  obtain ⟨hI, hcr⟩ := inv_fresh hE w mlt blt (S := S)
  have hfresh : ({ freshSt E w mlt blt with best := none } : St W S) = freshSt E w mlt blt := rfl
  have hrun : runEpochs E save k' 1 (freshSt E w mlt blt) = .ok r1 := by
    unfold fit at h1
    rw [hfresh, show k' + 1 - 1 = k' by omega] at h1
    cases hh : runEpochs E save k' 1 (freshSt E w mlt blt) with
    | error e => rw [hh] at h1; cases h1
    | ok x =>
      rw [hh] at h1
      simp only [bind, Except.bind] at h1
      split at h1
      · cases h1
      · cases h1; rfl
  have hnp0 : NoPending E (freshSt E w mlt blt) := by
    refine ⟨by simp [freshSt], fun _ r hr => ?_⟩
    obtain ⟨_, _, rfl⟩ := List.mem_map.1 hr
    rfl
  obtain ⟨hsp, hnp⟩ := runEpochs_split hE save blt k' n 1 (freshSt E w mlt blt) r1 hI
    (by rw [hcr]; intro p hp; rw [List.prefix_nil.1 hp]; exact not_triggers_nil E) hnp0 hrun hq
  -- the invariant of the state after `k` epochs, for the validation metrics
  have hvr : r1.valRun = E.metrics.map (fun _ => []) := by
    obtain ⟨r2, k2, e1, e2, _⟩ := runEpochs_spec hE save blt k' 0 (freshSt E w mlt blt) hI
      (by rw [hcr]; intro p hp; rw [List.prefix_nil.1 hp]; exact not_triggers_nil E) (by simp [freshSt]) rfl rfl (by simp [freshSt]) (by simp)
    rw [show 0 + 1 = 1 from rfl, hrun] at e1
    cases e1
    apply List.ext_getElem
    · simp [e2.l2]
    · intro i h1 h2
      rw [e2.vr _ (List.getElem_mem _)]
      simp
  have htr : r1.trainRun = E.metrics.map (fun _ => []) := by
    apply List.ext_getElem
    · simp [hnp.1]
    · intro i h1 h2
      rw [hnp.2 hpend _ (List.getElem_mem _)]
      simp
  have hsim : core { r1 with losses := [] } = core { ({ (resumeSt E load w0 ⟨k', r1.step, r1.hist, save r1.world⟩ r1.bestLt).2 with best := none } : St W S) with losses := [] } := by
    simp only [core, resumeSt, hls, hvr, htr, f15, St.mk.injEq, true_and, and_true]
  have hrr := runEpochs_core E save n (k' + 1) _ _ hsim
  -- the uninterrupted run
  have hfull : runEpochs E save n (k' + 1) r1 = .ok r ∧ ¬ (r.hist.nEpoch = 0 ∨ r.hist.nTrain = 0) := by
    unfold fit at g1
    rw [hfresh, show k' + n + 1 - 1 = k' + n by omega, hsp, Nat.add_comm 1 k'] at g1
    cases hh : runEpochs E save n (k' + 1) r1 with
    | error e => rw [hh] at g1; cases g1
    | ok x =>
      rw [hh] at g1
      simp only [bind, Except.bind] at g1
      split at g1
      · cases g1
      · rename_i hne; cases g1; exact ⟨rfl, hne⟩
  rw [hfull.1] at hrr
  cases hh : runEpochs E save n (k' + 1) { (resumeSt E load w0 ⟨k', r1.step, r1.hist, save r1.world⟩ r1.bestLt).2 with best := none } with
  | error e => rw [hh] at hrr; simp [Except.map] at hrr
  | ok r' =>
    rw [hh] at hrr
    have hc : core { r with losses := [] } = core { r' with losses := [] } := by simpa [Except.map] using hrr
    have q1 : r.hist = r'.hist := (core_fields hc).1
    refine ⟨_, r, r', f15, g1, ?_, q1.symm, (core_fields hc).2.1.symm, (core_fields hc).2.2.1.symm, (core_fields hc).2.2.2.symm⟩
    unfold fit
    rw [show (resumeSt E load w0 (⟨k', r1.step, r1.hist, save r1.world⟩ : Ckpt S) r1.bestLt).1 = k' + 1 from rfl,
      show k' + n + 1 - (k' + 1) = n by omega, hh]
    simp only [bind, Except.bind]
    rw [← q1, if_neg hfull.2]

/-- **C40 (crash points).** If the process dies after any number of batches of an epoch, `model.lt` is still that of the end of the
previous epoch, so that resuming starts the interrupted epoch again. -/
theorem C40_crash_point (E : Env W B P) (save : W → S) (epoch : Nat) (st : St W S) (bs : List B) (r : St W S × Bool)
    (h : runBatches E save epoch st bs = .ok r) : r.1.modelLt = st.modelLt := by
  induction bs generalizing st with
  | nil => cases h; rfl
  | cons b bs ih =>
    rw [runBatches] at h
    cases h1 : batchStep E save epoch st b with
    | error e => rw [h1] at h; cases h
    | ok q =>
      rw [h1] at h
      simp only [bind, Except.bind] at h
      have hq : q.1.modelLt = st.modelLt := by
        unfold batchStep at h1
        cases h2 : evalTrain E (trainOne E st b) with
        | error e => rw [h2] at h1; cases h1
        | ok s1 =>
          have e1 : s1.modelLt = st.modelLt := by
            unfold evalTrain at h2
            split at h2
            · split at h2
              · cases h2
              · split at h2
                · cases hs : summarize (trainOne E st b).trainRun (trainOne E st b).hist.trainEval with
                  | error e => rw [hs] at h2; cases h2
                  | ok te => rw [hs] at h2; cases h2; rfl
                · cases h2; rfl
            · cases h2; rfl
          simp only [h2, bind, Except.bind] at h1
          cases h3 : evalVal E save epoch s1 with
          | error e => rw [h3] at h1; cases h1
          | ok s2 =>
            simp only [h3] at h1
            rw [← e1, ← (evalVal_trainRun h3).2.2]
            split at h1
            · cases h1
            · split at h1
              · cases h1
              · cases h1; rfl
      split at h
      · cases h; exact hq
      · rw [ih q.1 h, hq]

/-! ## Examples and refutations -/

/-- The hypotheses of `C40_resume_partial` hold: two epochs, then four more. -/
example : ∃ r1, fit (demoEnv none) (fun w => w) 1 2 (freshSt (demoEnv none) 0 none none) = .ok r1 ∧ r1.step % (demoEnv none).evalStep = 0 ∧
    Quiet (demoEnv none) (critOf (demoEnv none) r1.hist) := by
  obtain ⟨r, k, h1, h2, h3, h4, h5⟩ := C39_fit (E := demoEnv none) (sizes := [2, 1])
    { train := fun w => rfl, pos := by simp, ne := by simp, val := by simp [demoEnv], step := by simp [demoEnv], crit := by simp [demoEnv] }
    (fun w => w) 2 (by omega) 0 none none
  refine ⟨r, h1, ?_, ?_⟩
  · rcases h4 with ⟨_, e, _⟩ | ⟨⟨_, _, e, _⟩, _⟩
    · rw [e]; rfl
    · simp [demoEnv] at e
  · rcases h4 with ⟨_, _, e⟩ | ⟨⟨_, _, e, _⟩, _⟩
    · exact e
    · simp [demoEnv] at e

/-- A run of `k` epochs and then a run resumed up to `m` epochs. -/
def runResumed (E : Env W B P) (save : W → S) (load : W → S → W) (w w0 : W) (k m : Nat) : Except PyErr (St W S) := do
  let r1 ← fit E save 1 k (freshSt E w none none)
  match r1.modelLt with
  | none => .error .runtimeError
  | some c => fit E save (resumeSt E load w0 c r1.bestLt).1 m (resumeSt E load w0 c r1.bestLt).2

/-- **C40, refuted for the best model.** Without interruption the best model of three epochs is that of step 4 (validation loss
4/3). When the run is resumed after epoch 2 the best value seen before is forgotten, and the file of the best model is overwritten
with the model of step 6, whose loss is 8/3. -/
theorem C40_refuted_best_model :
    (fit (demoEnv none) (fun w => w) 1 3 (freshSt (demoEnv none) 0 none none)).toOption.bind (fun r => r.bestLt.map (fun c => (c.step, c.hist.valCosts.getLast?))) =
      some (4, some (4/3)) ∧
    (runResumed (demoEnv none) (fun w => w) (fun _ s => s) 0 100 2 3).toOption.bind (fun r => r.bestLt.map (fun c => (c.step, c.hist.valCosts.getLast?))) =
      some (6, some (8/3)) := by
  decide +kernel

/-- **C40, refuted for metrics on the training data.** With an evaluation every 3 steps and 2 steps per epoch, resuming after epoch
1 loses the metrics of the first two steps. -/
theorem C40_refuted_train_metrics :
    (fit { demoEnv none with evalStep := 3 } (fun w => w) 1 2 (freshSt { demoEnv none with evalStep := 3 } 0 none none)).toOption.map (fun r => r.hist.trainEval) =
      some [[-12/5]] ∧
    (runResumed { demoEnv none with evalStep := 3 } (fun w => w) (fun _ s => s) 0 100 1 2).toOption.map (fun r => r.hist.trainEval) = some [[-1]] := by
  decide +kernel

/-- A trainer whose dataset is shuffled: the world is the weight and the state of the generator of the module `random`, which picks
the order of the two batches. -/
def shuffledEnv : Env (Int × Nat) (List Int) Int where
  trainData := fun w => (if w.2 % 2 = 0 then [[3, 4], [5]] else [[5], [3, 4]], (w.1, w.2 / 2))
  valData := none
  size := List.length
  train := fun w b => ((w.1 + b.headD 0, w.2), w.1, ((b.headD 0 - w.1) ^ 2 : Int))
  valid := fun w b => (w, w.1, 0)
  metrics := []
  evalOnTrain := false
  evalStep := 2
  criterion := none
  esInterval := none
  minimize := true

/-- trainer.py:280-281: the generator is restored only if the trainer has a seed. -/
def loadWorld (seed : Option Nat) (w0 s : Int × Nat) : Int × Nat := (s.1, if seed.isSome then s.2 else w0.2)

/-- **C40, refuted without a seed.** The state of the generator is stored but not restored if `seed` is `None`, so the resumed run
sees the batches in another order and records other losses. With a seed it does not. -/
theorem C40_refuted_no_seed :
    (fit shuffledEnv (fun w => w) 1 2 (freshSt shuffledEnv (0, 0) none none)).toOption.map (fun r => r.hist.trainCosts) = some [9, 4, 25, 36] ∧
    (runResumed shuffledEnv (fun w => w) (loadWorld none) (0, 0) (0, 1) 1 2).toOption.map (fun r => r.hist.trainCosts) = some [9, 4, 9, 100] ∧
    (runResumed shuffledEnv (fun w => w) (loadWorld (some 0)) (0, 0) (0, 1) 1 2).toOption.map (fun r => r.hist.trainCosts) = some [9, 4, 25, 36] := by
  decide +kernel

/-- **C40, refuted after early stopping.** A run that has stopped early is not finished: resuming it makes further steps. -/
theorem C40_refuted_early_stopped :
    (fit (demoEnv (some 2)) (fun w => w) 1 6 (freshSt (demoEnv (some 2)) 0 none none)).toOption.map (fun r => r.step) = some 8 ∧
    (runResumed (demoEnv (some 2)) (fun w => w) (fun _ s => s) 0 100 6 6).toOption.map (fun r => r.step) = some 9 := by
  decide +kernel

end Train
end Lambeq
