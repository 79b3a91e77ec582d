import Verif.Training.NelderMead
import Mathlib.Algebra.Order.Ring.Rat
import Mathlib.Tactic.Ring
import Mathlib.Tactic.FieldSimp
import Mathlib.Data.List.Sort

/-!
# C43: Nelder-Mead, and its part of C44
-/

namespace Lambeq
namespace Train
set_option linter.unusedSimpArgs false
set_option linter.unusedVariables false
set_option linter.unusedSectionVars false

variable {K : Type} [Field K] [LinearOrder K] [IsStrictOrderedRing K]

/-! ## Specification -/

/-- The simplex is ordered by loss, best first. -/
def ByLoss (sim : List (Vertex K)) : Prop := sim.Pairwise (fun a b => a.2 ≤ b.2)

/-- Any way of sorting by loss (`numpy.argsort` does not promise more). -/
def Sorts (sort : List (Vertex K) → List (Vertex K)) : Prop := ∀ l, (sort l).Perm l ∧ ByLoss (sort l)

/-- A point of the right dimension that satisfies the bounds, if there are any. -/
def Inside (bounds : Option (List (K × K))) (n : Nat) (x : List K) : Prop :=
  x.length = n ∧ ∀ bds, bounds = some bds → List.Forall₂ (fun (b : K × K) v => b.1 ≤ v ∧ v ≤ b.2) bds x

/-- One pair `lower ≤ upper` for each dimension. -/
def BoundsOk (bounds : Option (List (K × K))) (n : Nat) : Prop :=
  ∀ bds, bounds = some bds → bds.length = n ∧ ∀ b ∈ bds, b.1 ≤ b.2

/-- The states of an optimiser with `n` parameters: `n + 1` vertices, all inside the bounds; ordered by loss once evaluated. -/
structure NM.Inv (s : NM K) (n : Nat) : Prop where
  size : s.sim.length = n + 1
  inside : ∀ v ∈ s.sim, Inside s.bounds n v.1
  bounds : BoundsOk s.bounds n
  sorted : s.first = false → ByLoss s.sim

/-- A history: for each batch, `backward` and then `step`. The loss reported and the points evaluated for each batch. -/
def NM.train (sort : List (Vertex K) → List (Vertex K)) (symbols : List String) (s : NM K) :
    List (List (List String) × (List K → K)) → Except PyErr (NM K × List (K × List (List K)))
  | [] => .ok (s, [])
  | b :: bs =>
    match s.backward sort symbols b.1 b.2 with
    | .error e => .error e
    | .ok r =>
      match NM.train sort symbols r.1.step bs with
      | .error e => .error e
      | .ok q => .ok (q.1, (r.2.1, r.2.2) :: q.2)

/-! ## Points -/

theorem clipTo_inside {b : Option (List (K × K))} {n : Nat} (hb : BoundsOk b n) {x : List K} (hx : x.length = n) : Inside b n (clipTo b x) := by
  cases b with
  | none => exact ⟨hx, by simp⟩
  | some bds =>
    obtain ⟨h1, h2⟩ := hb bds rfl
    refine ⟨by simp [clipTo, h1, hx], ?_⟩
    rintro _ ⟨⟩
    simp only [clipTo]
    subst hx
    clear hb
    induction bds generalizing x with
    | nil => simp
    | cons c bds ih =>
      cases x with
      | nil => simp at h1
      | cons y x =>
        simp only [List.zipWith_cons_cons]
        have hc := h2 c (by simp)
        exact .cons ⟨by simp [hc], by simp⟩ (ih (fun d hd => h2 d (by simp [hd])) (by simpa using h1))

theorem clipTo_of_inside {b : Option (List (K × K))} {n : Nat} {x : List K} (hx : Inside b n x) : clipTo b x = x := by
  cases b with
  | none => rfl
  | some bds =>
    have h := hx.2 bds rfl
    simp only [clipTo]
    clear hx
    induction h with
    | nil => rfl
    | cons h _ ih => simp [ih, h.1, h.2]

theorem vadd_length (x y : List K) : (vadd x y).length = min x.length y.length := by simp [vadd]
theorem vsub_length (x y : List K) : (vsub x y).length = min x.length y.length := by simp [vsub]
theorem vscale_length (k : K) (x : List K) : (vscale k x).length = x.length := by simp [vscale]

theorem centroid_length {n : Nat} {sim : List (Vertex K)} (h : ∀ v ∈ sim, v.1.length = n) : (centroid n sim).length = n := by
  unfold centroid
  have h' : ∀ v ∈ sim.dropLast, v.1.length = n := fun v hv => h v (List.dropLast_subset _ hv)
  simp only [List.length_map]
  generalize sim.dropLast = l at h'
  clear h
  induction l with
  | nil => simp
  | cons v l ih =>
    simp only [List.map_cons, List.foldr_cons, vadd_length]
    rw [ih (fun w hw => h' w (by simp [hw])), h' v (by simp)]; simp

section candidates
variable {s : NM K} {n : Nat} (hb : BoundsOk s.bounds n) {c x : List K} (hc : c.length = n) (hx : x.length = n)
include hb hc hx
theorem reflected_inside : Inside s.bounds n (s.reflected c x) := clipTo_inside hb (by simp [vsub_length, vscale_length, hc, hx])
theorem expanded_inside : Inside s.bounds n (s.expanded c x) := clipTo_inside hb (by simp [vadd_length, vsub_length, vscale_length, hc, hx])
theorem contracted_inside : Inside s.bounds n (s.contracted c x) := clipTo_inside hb (by simp [vadd_length, vsub_length, vscale_length, hc, hx])
theorem insideContracted_inside : Inside s.bounds n (s.insideContracted c x) :=
  clipTo_inside hb (by simp [vadd_length, vsub_length, vscale_length, hc, hx])
theorem shrunk_inside : Inside s.bounds n (s.shrunk c x) := clipTo_inside hb (by simp [vadd_length, vsub_length, vscale_length, hc, hx])
end candidates

/-! ## One iteration -/

/-- The points of a trial and their order, whatever the losses. -/
theorem trial_cases (s : NM K) (f : List K → K) (xbar : List K) (f0 f2 : K) (last : Vertex K) (h0 : f0 ≤ f2) (h2 : f2 ≤ last.2) :
    ∃ t pts, s.trial f xbar f0 f2 last = (t, pts) ∧ pts.length ≤ 2 ∧
      (∀ p ∈ pts, p = s.reflected xbar last.1 ∨ p = s.expanded xbar last.1 ∨ p = s.contracted xbar last.1 ∨
        p = s.insideContracted xbar last.1) ∧
      ((∃ v, t = .replace v ∧ v.2 = f v.1 ∧ v.1 ∈ pts ∧ v.2 < last.2 ∧ ∀ p ∈ pts, v.2 ≤ f p ∨ f0 ≤ f p) ∨
       (t = .shrink ∧ ∀ p ∈ pts, f0 ≤ f p)) := by
  unfold NM.trial
  simp only
  split
  · split
    · refine ⟨_, _, rfl, by simp, by simp, .inl ⟨_, rfl, rfl, by simp, by simp only; linarith, ?_⟩⟩
      intro p hp; simp only [List.mem_cons, List.not_mem_nil, or_false] at hp
      rcases hp with rfl | rfl
      · left; simp only; linarith
      · left; simp
    · refine ⟨_, _, rfl, by simp, by simp, .inl ⟨_, rfl, rfl, by simp, by simp only; linarith, ?_⟩⟩
      intro p hp; simp only [List.mem_cons, List.not_mem_nil, or_false] at hp
      rcases hp with rfl | rfl
      · left; simp
      · left; simp only; linarith
  · split
    · refine ⟨_, _, rfl, by simp, by simp, .inl ⟨_, rfl, rfl, by simp, by simp only; linarith, ?_⟩⟩
      intro p hp; simp only [List.mem_cons, List.not_mem_nil, or_false] at hp
      subst hp; left; simp
    · split
      · split
        · refine ⟨_, _, rfl, by simp, by simp, .inl ⟨_, rfl, rfl, by simp, by simp only; linarith, ?_⟩⟩
          intro p hp; simp only [List.mem_cons, List.not_mem_nil, or_false] at hp
          rcases hp with rfl | rfl
          · left; simp only; linarith
          · left; simp
        · refine ⟨_, _, rfl, by simp, by simp, .inr ⟨rfl, ?_⟩⟩
          intro p hp; simp only [List.mem_cons, List.not_mem_nil, or_false] at hp
          rcases hp with rfl | rfl <;> linarith
      · split
        · refine ⟨_, _, rfl, by simp, by simp, .inl ⟨_, rfl, rfl, by simp, by simp only; linarith, ?_⟩⟩
          intro p hp; simp only [List.mem_cons, List.not_mem_nil, or_false] at hp
          rcases hp with rfl | rfl
          · right; linarith
          · left; simp
        · refine ⟨_, _, rfl, by simp, by simp, .inr ⟨rfl, ?_⟩⟩
          intro p hp; simp only [List.mem_cons, List.not_mem_nil, or_false] at hp
          rcases hp with rfl | rfl <;> linarith

/-- What an iteration does to an ordered simplex `x0, r, l`. -/
theorem iterate_cases (s : NM K) (f : List K → K) (x0 l : Vertex K) (r : List (Vertex K)) (hs : ByLoss (x0 :: (r ++ [l]))) :
    ∃ pts new, (∀ p ∈ pts, p = s.reflected (centroid (r.length + 1) (x0 :: (r ++ [l]))) l.1 ∨ p = s.expanded (centroid (r.length + 1) (x0 :: (r ++ [l]))) l.1 ∨
        p = s.contracted (centroid (r.length + 1) (x0 :: (r ++ [l]))) l.1 ∨ p = s.insideContracted (centroid (r.length + 1) (x0 :: (r ++ [l]))) l.1) ∧ pts.length ≤ 2 ∧
      ((∃ v, s.iterate f x0 (r ++ [l]) = (x0 :: (r ++ [v]), pts) ∧ v.2 = f v.1 ∧ v.1 ∈ pts ∧ v.2 < l.2 ∧ ∀ p ∈ pts, v.2 ≤ f p ∨ x0.2 ≤ f p) ∨
       (new = (r ++ [l]).map (fun v => s.shrunk x0.1 v.1) ∧ s.iterate f x0 (r ++ [l]) = (x0 :: new.map (fun p => (p, f p)), pts ++ new) ∧
        ∀ p ∈ pts, x0.2 ≤ f p)) := by
  have h0 : x0.2 ≤ ((x0 :: r).getLast (by simp)).2 := by
    have hs' := (List.pairwise_cons.1 hs).1
    rcases List.eq_nil_or_concat r with rfl | ⟨r', m, rfl⟩
    · simp
    · simp only [List.getLast_cons_cons, List.concat_eq_append]
      have : (x0 :: (r' ++ [m])).getLast (by simp) = m := by simp
      rw [this]
      exact hs' m (by simp)
  have h2 : ((x0 :: r).getLast (by simp)).2 ≤ l.2 := by
    rw [← List.cons_append] at hs
    exact (List.pairwise_append.1 hs).2.2 _ (List.getLast_mem _) l (by simp)
  obtain ⟨t, pts, ht, hlen, hpts, hc⟩ := trial_cases s f (centroid (r.length + 1) (x0 :: (r ++ [l]))) x0.2 _ l h0 h2
  have hit : s.iterate f x0 (r ++ [l]) = ((s.applyTrial f x0 (r ++ [l]) t).1, pts ++ (s.applyTrial f x0 (r ++ [l]) t).2) := by
    unfold NM.iterate
    have e1 : (x0 :: (r ++ [l])).getLast (by simp) = l := by simp
    have e2 : (x0 :: (r ++ [l]).dropLast).getLast (by simp) = (x0 :: r).getLast (by simp) := by
      congr 1; simp
    simp only [e1, e2, List.length_append, List.length_singleton, ht]
  refine ⟨pts, (r ++ [l]).map (fun v => s.shrunk x0.1 v.1), hpts, hlen, ?_⟩
  rcases hc with ⟨v, rfl, h1, h2, h3, h4⟩ | ⟨rfl, h⟩
  · left
    refine ⟨v, ?_, h1, h2, h3, h4⟩
    rw [hit]
    have : (x0 :: (r ++ [l])).dropLast = x0 :: r := by rw [← List.cons_append, List.dropLast_concat]
    simp [NM.applyTrial, this]
  · right
    exact ⟨rfl, by rw [hit]; simp [NM.applyTrial], h⟩

/-- The facts about an iteration that the properties need. -/
theorem iterate_facts (s : NM K) (f : List K → K) (n : Nat) (x0 : Vertex K) (rest : List (Vertex K)) (hne : rest ≠ [])
    (hs : ByLoss (x0 :: rest)) (hb : BoundsOk s.bounds n) (hn : rest.length = n) (hd : ∀ v ∈ x0 :: rest, v.1.length = n) :
    (s.iterate f x0 rest).1.length = n + 1 ∧ x0 ∈ (s.iterate f x0 rest).1 ∧
    (∀ p ∈ (s.iterate f x0 rest).2, Inside s.bounds n p) ∧
    (∀ v ∈ (s.iterate f x0 rest).1, v ∈ x0 :: rest ∨ (v.2 = f v.1 ∧ v.1 ∈ (s.iterate f x0 rest).2)) ∧
    (∀ p ∈ (s.iterate f x0 rest).2, ∃ w ∈ (s.iterate f x0 rest).1, w.2 ≤ f p) ∧
    (s.iterate f x0 rest).2.length ≤ n + 2 := by
  obtain ⟨r, l, rfl⟩ := (List.eq_nil_or_concat rest).resolve_left hne
  rw [List.concat_eq_append] at *
  simp only [List.length_append, List.length_singleton] at hn
  have hc : (centroid (r.length + 1) (x0 :: (r ++ [l]))).length = n := by rw [hn]; exact centroid_length hd
  have hl : l.1.length = n := hd l (by simp)
  obtain ⟨pts, new, hp, hlen, h⟩ := iterate_cases s f x0 l r hs
  have hin : ∀ p ∈ pts, Inside s.bounds n p := by
    intro p hq
    rcases hp p hq with rfl | rfl | rfl | rfl
    · exact reflected_inside hb hc hl
    · exact expanded_inside hb hc hl
    · exact contracted_inside hb hc hl
    · exact insideContracted_inside hb hc hl
  rcases h with ⟨v, he, h1, h2, h3, h4⟩ | ⟨rfl, he, h4⟩
  · rw [he]
    refine ⟨by simp [← hn], by simp, hin, ?_, ?_, by simp only; omega⟩
    · intro w hw
      simp only [List.mem_cons, List.mem_append, List.not_mem_nil, or_false] at hw ⊢
      rcases hw with rfl | hw | rfl
      · exact .inl (.inl rfl)
      · exact .inl (.inr (.inl hw))
      · exact .inr ⟨h1, h2⟩
    · intro p hq
      rcases h4 p hq with h | h
      · exact ⟨v, by simp, h⟩
      · exact ⟨x0, by simp, h⟩
  · rw [he]
    have hx0 := hd x0 (by simp)
    refine ⟨by simp [← hn], by simp, ?_, ?_, ?_, ?_⟩
    · intro p hq
      simp only [List.mem_append, List.mem_map] at hq
      rcases hq with hq | ⟨v, hv, rfl⟩
      · exact hin p hq
      · exact shrunk_inside hb hx0 (hd v (List.mem_cons_of_mem _ (List.mem_append.2 hv)))
    · intro w hw
      simp only [List.mem_cons, List.mem_map] at hw
      rcases hw with rfl | ⟨p, ⟨v, hv, rfl⟩, rfl⟩
      · exact .inl (by simp)
      · exact .inr ⟨rfl, List.mem_append_right _ (List.mem_map.2 ⟨v, hv, rfl⟩)⟩
    · intro p hq
      rcases List.mem_append.1 hq with hq | hq
      · exact ⟨x0, by simp, h4 p hq⟩
      · exact ⟨(p, f p), by simp only [List.mem_cons, List.mem_map]; exact .inr ⟨p, List.mem_map.1 hq, rfl⟩, le_refl _⟩
    · simp only [List.length_append, List.length_map, List.length_singleton]; omega

/-! ## The parts of backward -/

theorem backward_parts {s s' : NM K} {sort : List (Vertex K) → List (Vertex K)} {symbols : List String} {free : List (List String)}
    {f : List K → K} {loss : K} {pts : List (List K)} (h : s.backward sort symbols free f = .ok (s', loss, pts)) :
    ∃ mask im x0 rest, (symbolMask symbols free : Except PyErr (List K)) = .ok mask ∧ s.improve f (s.start sort f).1 = .ok im ∧
      sort im.1 = x0 :: rest ∧ pts = (s.start sort f).2 ++ im.2 ∧ loss = (rest.map Prod.snd).foldl min x0.2 ∧
      s' = { s with sim := x0 :: rest, first := false, ncalls := s.ncalls + pts.length, weights := pts.getLastD s.weights,
                    gradient := List.zipWith (· * ·) x0.1 mask } := by
  unfold NM.backward at h
  cases hm : (symbolMask symbols free : Except PyErr (List K)) with
  | error e => rw [hm] at h; cases h
  | ok mask =>
    rw [hm] at h
    simp only [bind, Except.bind] at h
    cases hi : s.improve f (s.start sort f).1 with
    | error e => rw [hi] at h; cases h
    | ok im =>
      rw [hi] at h
      simp only at h
      cases hs : sort im.1 with
      | nil => rw [hs] at h; cases h
      | cons x0 rest =>
        rw [hs] at h
        simp only at h
        cases h
        exact ⟨mask, im, x0, rest, rfl, rfl, hs, rfl, rfl, rfl⟩

theorem foldl_min_sorted {x0 : Vertex K} {rest : List (Vertex K)} (h : ByLoss (x0 :: rest)) : (rest.map Prod.snd).foldl min x0.2 = x0.2 := by
  have h' := (List.pairwise_cons.1 h).1
  clear h
  induction rest with
  | nil => rfl
  | cons v rest ih =>
    simp only [List.map_cons, List.foldl_cons]
    rw [min_eq_left (h' v (by simp))]
    exact ih (fun w hw => h' w (by simp [hw]))

/-- The simplex after lines 297-304. -/
theorem start_facts {s : NM K} {sort : List (Vertex K) → List (Vertex K)} (hsort : Sorts sort) {n : Nat} (hi : s.Inv n) (f : List K → K) :
    (s.start sort f).1.length = n + 1 ∧ ByLoss (s.start sort f).1 ∧ (∀ v ∈ (s.start sort f).1, Inside s.bounds n v.1) ∧
    (∀ p ∈ (s.start sort f).2, Inside s.bounds n p ∧ (p, f p) ∈ (s.start sort f).1) ∧
    (s.first = true → ∀ v ∈ (s.start sort f).1, v.2 = f v.1) ∧
    (s.start sort f).2.length = (if s.first then n + 1 else 0) := by
  unfold NM.start
  cases hf : s.first with
  | false => exact ⟨hi.size, hi.sorted hf, hi.inside, by simp, by simp, by simp⟩
  | true =>
    obtain ⟨hp, hs⟩ := hsort (s.sim.map (fun v => (v.1, f v.1)))
    have hm := fun v => hp.mem_iff (a := v)
    simp only [if_true]
    refine ⟨by rw [hp.length_eq]; simp [hi.size], hs, ?_, ?_, ?_, by simp [hi.size]⟩
    · intro v hv
      obtain ⟨w, hw, rfl⟩ := List.mem_map.1 ((hm v).1 hv)
      exact hi.inside w hw
    · intro p hq
      obtain ⟨w, hw, rfl⟩ := List.mem_map.1 hq
      exact ⟨hi.inside w hw, (hm _).2 (List.mem_map.2 ⟨w, hw, rfl⟩)⟩
    · intro _ v hv
      obtain ⟨w, hw, rfl⟩ := List.mem_map.1 ((hm v).1 hv)
      rfl

theorem improve_facts {s : NM K} {n : Nat} (hb : BoundsOk s.bounds n) (f : List K → K) (sim : List (Vertex K)) (hlen : sim.length = n + 1)
    (hs : ByLoss sim) (hin : ∀ v ∈ sim, Inside s.bounds n v.1) {im : List (Vertex K) × List (List K)} (h : s.improve f sim = .ok im) :
    im.1.length = n + 1 ∧ (∀ p ∈ im.2, Inside s.bounds n p) ∧ (∀ v ∈ im.1, v ∈ sim ∨ (v.2 = f v.1 ∧ v.1 ∈ im.2)) ∧
    (∀ p ∈ im.2, ∃ w ∈ im.1, w.2 ≤ f p) ∧ im.2.length ≤ n + 2 ∧ (∀ v ∈ sim, ∃ w ∈ im.1, w.2 ≤ v.2) := by
  match sim, h with
  | x0 :: x1 :: rest, h =>
    simp only [NM.improve] at h
    have hmin : ∀ v ∈ x0 :: x1 :: rest, x0.2 ≤ v.2 := by
      intro v hv
      rcases List.mem_cons.1 hv with rfl | hv
      · exact le_refl _
      · exact (List.pairwise_cons.1 hs).1 v hv
    split at h
    · cases h
      exact ⟨hlen, by simp, fun v hv => .inl hv, by simp, by simp, fun v hv => ⟨v, hv, le_refl _⟩⟩
    · cases h
      obtain ⟨h1, h2, h3, h4, h5, h6⟩ := iterate_facts s f n x0 (x1 :: rest) (by simp) hs hb (by simpa using hlen) (fun v hv => (hin v hv).1)
      exact ⟨h1, h3, h4, h5, h6, fun v hv => ⟨x0, h2, hmin v hv⟩⟩

/-! ## C43 -/

/-- **C43 (one call).** Whatever the loss function does on the batch, and in every reachable state: after `backward` the simplex has
the same number of vertices, they are inside the bounds and ordered by loss; every point at which the loss was evaluated is inside the
bounds; the loss returned is the least loss in the simplex, it is at most the best loss before the call, and at most the loss at every
point evaluated in this call; every vertex that was not there before is a point evaluated in this call, with its loss. `ncalls` counts
the evaluations, of which there are at most `n + 2` after the first call. -/
theorem C43_backward {sort : List (Vertex K) → List (Vertex K)} (hsort : Sorts sort) {n : Nat} (s s' : NM K) (hi : s.Inv n)
    (symbols : List String) (free : List (List String)) (f : List K → K) (loss : K) (pts : List (List K))
    (h : s.backward sort symbols free f = .ok (s', loss, pts)) :
    s'.Inv n ∧ s'.first = false ∧ s'.bounds = s.bounds ∧ ByLoss s'.sim ∧ (∀ p ∈ pts, Inside s.bounds n p) ∧
    (∃ v ∈ s'.sim, v.2 = loss) ∧ (∀ v ∈ s'.sim, loss ≤ v.2) ∧ (s.first = false → ∀ v ∈ s.sim, loss ≤ v.2) ∧
    (∀ p ∈ pts, loss ≤ f p) ∧ (∀ v ∈ s'.sim, (s.first = false ∧ v ∈ s.sim) ∨ (v.2 = f v.1 ∧ v.1 ∈ pts)) ∧
    s'.ncalls = s.ncalls + pts.length ∧ pts.length ≤ n + 2 + (if s.first then n + 1 else 0) := by
  obtain ⟨mask, im, x0, rest, hm, him, hso, rfl, rfl, rfl⟩ := backward_parts h
  obtain ⟨a1, a2, a3, a4, a5, a6⟩ := start_facts hsort hi f
  obtain ⟨b1, b2, b3, b4, b5, b6⟩ := improve_facts hi.bounds f _ a1 a2 a3 him
  obtain ⟨hp, hs⟩ := hsort im.1
  rw [hso] at hp hs
  have hmem := fun v => hp.mem_iff (a := v)
  have hbest : ∀ v ∈ x0 :: rest, x0.2 ≤ v.2 := by
    intro v hv
    rcases List.mem_cons.1 hv with rfl | hv
    · exact le_refl _
    · exact (List.pairwise_cons.1 hs).1 v hv
  have hinside : ∀ v ∈ x0 :: rest, Inside s.bounds n v.1 := by
    intro v hv
    rcases b3 v ((hmem v).1 hv) with h | ⟨_, h⟩
    · exact a3 v h
    · exact b2 _ h
  rw [foldl_min_sorted hs]
  refine ⟨⟨by rw [← b1, ← hp.length_eq], hinside, hi.bounds, fun _ => hs⟩, rfl, rfl, hs, ?_, ⟨x0, by simp, rfl⟩, hbest, ?_, ?_, ?_, rfl, ?_⟩
  · intro p hq
    rcases List.mem_append.1 hq with hq | hq
    · exact (a4 p hq).1
    · exact b2 p hq
  · intro hf v hv
    have he : (s.start sort f).1 = s.sim := by simp [NM.start, hf]
    obtain ⟨w, hw, hle⟩ := b6 v (by rw [he]; exact hv)
    exact (hbest w ((hmem w).2 hw)).trans hle
  · intro p hq
    rcases List.mem_append.1 hq with hq | hq
    · obtain ⟨w, hw, hle⟩ := b6 _ (a4 p hq).2
      exact (hbest w ((hmem w).2 hw)).trans hle
    · obtain ⟨w, hw, hle⟩ := b4 p hq
      exact (hbest w ((hmem w).2 hw)).trans hle
  · intro v hv
    rcases b3 v ((hmem v).1 hv) with h | ⟨h1, h2⟩
    · cases hf : s.first with
      | false =>
        have he : (s.start sort f).1 = s.sim := by simp [NM.start, hf]
        exact .inl ⟨rfl, by rw [he] at h; exact h⟩
      | true =>
        refine .inr ⟨a5 hf v h, List.mem_append_left _ ?_⟩
        have he : (s.start sort f).1 = sort (s.sim.map (fun v => (v.1, f v.1))) := by simp [NM.start, hf]
        rw [he] at h
        obtain ⟨w, hw, rfl⟩ := List.mem_map.1 ((hsort _).1.mem_iff.1 h)
        simp only [NM.start, hf, if_true]
        exact List.mem_map.2 ⟨w, hw, rfl⟩
    · exact .inr ⟨h1, List.mem_append_right _ h2⟩
  · simp only [List.length_append, a6]; omega

/-- **C43 (no exception).** With at least one parameter and a diagram in the batch, `backward` never raises. -/
theorem C43_total {sort : List (Vertex K) → List (Vertex K)} (hsort : Sorts sort) {n : Nat} (hn : 0 < n) (s : NM K) (hi : s.Inv n)
    (symbols : List String) (free : List (List String)) (hfree : free ≠ []) (f : List K → K) :
    ∃ r, s.backward sort symbols free f = .ok r := by
  obtain ⟨a1, a2, a3, a4, a5, a6⟩ := start_facts hsort hi f
  have hm : ∃ m, (symbolMask symbols free : Except PyErr (List K)) = .ok m := by
    cases free with
    | nil => exact absurd rfl hfree
    | cons a b => exact ⟨_, rfl⟩
  obtain ⟨m, hm⟩ := hm
  have him : ∃ im, s.improve f (s.start sort f).1 = .ok im := by
    match hl : (s.start sort f).1, a1 with
    | [_], h => simp at h; omega
    | x0 :: x1 :: rest, h => exact ⟨_, rfl⟩
  obtain ⟨im, him⟩ := him
  obtain ⟨b1, _⟩ := improve_facts hi.bounds f _ a1 a2 a3 him
  unfold NM.backward
  rw [hm]
  simp only [bind, Except.bind, him]
  cases hs : sort im.1 with
  | nil =>
    have := (hsort im.1).1.length_eq
    rw [hs, b1] at this; simp at this
  | cons x0 rest => exact ⟨_, rfl⟩

theorem step_inv {s : NM K} {n : Nat} (h : s.Inv n) : s.step.Inv n := ⟨h.size, h.inside, h.bounds, h.sorted⟩

/-- A new optimiser is in a good state. -/
theorem C43_init (w : List K) (adaptive : Bool) (simplex : Option (List (List K))) (xatol fatol : K) (bounds : Option (List (K × K))) (s : NM K)
    (h : NM.init w adaptive simplex xatol fatol bounds = .ok s) :
    s.Inv w.length ∧ s.first = true ∧ s.bounds = bounds ∧ s.weights = clipTo bounds w ∧
    (simplex = none → s.weights ∈ s.sim.map Prod.fst) := by
  unfold NM.init at h
  cases hc : (coefficients adaptive w.length : Except PyErr (K × K × K × K)) with
  | error e => rw [hc] at h; cases h
  | ok c =>
    rw [hc] at h
    simp only [bind, Except.bind] at h
    cases hb : initBounds w bounds with
    | error e => rw [hb] at h; cases h
    | ok w' =>
      rw [hb] at h
      simp only at h
      have hbo : BoundsOk bounds w.length ∧ w' = clipTo bounds w ∧ w'.length = w.length := by
        cases bounds with
        | none => cases hb; exact ⟨by simp [BoundsOk], rfl, rfl⟩
        | some bds =>
          simp only [initBounds] at hb
          split at hb
          · cases hb
          · rename_i h1
            split at hb
            · cases hb
            · rename_i h2
              cases hb
              have hb : BoundsOk (some bds) w.length := by
                rintro _ ⟨⟩
                refine ⟨by simpa using h1, ?_⟩
                intro b hb
                simp only [List.any_eq_true, decide_eq_true_eq, not_exists, not_and, not_lt] at h2
                exact h2 b hb
              exact ⟨hb, rfl, (clipTo_inside hb rfl).1⟩
      obtain ⟨hb1, hb2, hb3⟩ := hbo
      cases hr : initRows w' simplex with
      | error e => rw [hr] at h; cases h
      | ok rows =>
        rw [hr] at h
        cases h
        have hrows : rows.length = w.length + 1 ∧ ∀ r ∈ rows, r.length = w.length := by
          cases simplex with
          | none =>
            cases hr
            refine ⟨by simp [hb3], ?_⟩
            intro r hr
            simp only [List.mem_cons, List.mem_map] at hr
            rcases hr with rfl | ⟨k, _, rfl⟩
            · exact hb3
            · simp [initVertex, hb3]
          | some l =>
            cases l with
            | nil => cases hr
            | cons r rows' =>
              simp only [initRows] at hr
              split at hr
              · cases hr
              · rename_i h1
                split at hr
                · cases hr
                · rename_i h2
                  split at hr
                  · cases hr
                  · rename_i h3
                    cases hr
                    simp only [List.any_eq_true, decide_eq_true_eq, not_exists, not_and, not_not] at h1
                    simp only [ne_eq, not_not] at h2 h3
                    refine ⟨by simp; omega, ?_⟩
                    intro r' hr'
                    rcases List.mem_cons.1 hr' with rfl | hr'
                    · omega
                    · have := h1 r' hr'; omega
        refine ⟨⟨by simp [hrows.1], ?_, hb1, by simp⟩, rfl, rfl, hb2, ?_⟩
        · intro v hv
          obtain ⟨r, hr, rfl⟩ := List.mem_map.1 hv
          exact clipTo_inside hb1 (hrows.2 r hr)
        · rintro rfl
          cases hr
          have hin : Inside bounds w.length w' := by rw [hb2]; exact clipTo_inside hb1 rfl
          simp [clipTo_of_inside hin]

/-- **C43 (histories).** Over any sequence of batches, with any losses: the reported losses never increase, every point evaluated and
every vertex at the end is inside the bounds, and the simplex at the end is ordered by loss (part of `Inv`) and its best loss is at most
every loss reported. -/
theorem C43_history {sort : List (Vertex K) → List (Vertex K)} (hsort : Sorts sort) {n : Nat} (symbols : List String)
    (bs : List (List (List String) × (List K → K))) (s s' : NM K) (hi : s.Inv n) (out : List (K × List (List K)))
    (h : NM.train sort symbols s bs = .ok (s', out)) :
    s'.Inv n ∧ s'.bounds = s.bounds ∧ out.length = bs.length ∧ (∀ o ∈ out, ∀ p ∈ o.2, Inside s.bounds n p) ∧
    (out.map Prod.fst).Pairwise (· ≥ ·) ∧ (s.first = false → ∀ o ∈ out, ∀ v ∈ s.sim, o.1 ≤ v.2) ∧
    (∀ o ∈ out, ∃ w ∈ s'.sim, w.2 ≤ o.1) := by
  induction bs generalizing s out with
  | nil =>
    cases h
    exact ⟨hi, rfl, rfl, by simp, by simp, by simp, by simp⟩
  | cons b bs ih =>
    simp only [NM.train] at h
    cases hr : s.backward sort symbols b.1 b.2 with
    | error e => rw [hr] at h; cases h
    | ok r =>
      rw [hr] at h
      simp only at h
      obtain ⟨s1, l, pts⟩ := r
      obtain ⟨c1, c2, c3, c4, c5, c6, c7, c8, c9, c10, c11, c12⟩ := C43_backward hsort s s1 hi symbols b.1 b.2 l pts hr
      cases hq : NM.train sort symbols s1.step bs with
      | error e => rw [hq] at h; cases h
      | ok q =>
        rw [hq] at h
        cases h
        obtain ⟨s2, out2⟩ := q
        obtain ⟨d1, d2, d3, d4, d5, d6, d7⟩ := ih s1.step (step_inv c1) out2 hq
        have hb : s1.step.bounds = s.bounds := c3
        obtain ⟨v0, hv0, hl⟩ := c6
        have hnext : ∀ o ∈ out2, o.1 ≤ l := by
          intro o ho
          rw [← hl]
          exact d6 c2 o ho v0 hv0
        refine ⟨d1, d2.trans hb, by simp [d3], ?_, ?_, ?_, ?_⟩
        · intro o ho
          rcases List.mem_cons.1 ho with rfl | ho
          · exact c5
          · rw [← hb]; exact d4 o ho
        · simp only [List.map_cons, List.pairwise_cons]
          refine ⟨?_, d5⟩
          intro x hx
          obtain ⟨o, ho, rfl⟩ := List.mem_map.1 hx
          exact hnext o ho
        · intro hf o ho v hv
          rcases List.mem_cons.1 ho with rfl | ho
          · exact c8 hf v hv
          · exact (hnext o ho).trans (c8 hf v hv)
        · intro o ho
          rcases List.mem_cons.1 ho with rfl | ho
          · cases bs with
            | nil =>
              cases hq
              exact ⟨v0, hv0, hl.le⟩
            | cons b2 bs2 =>
              obtain ⟨o2, ho2⟩ : ∃ o2, o2 ∈ out2 := by
                cases out2 with
                | nil => simp at d3
                | cons o2 _ => exact ⟨o2, by simp⟩
              obtain ⟨w, hw, hle⟩ := d7 o2 ho2
              exact ⟨w, hw, hle.trans (hnext o2 ho2)⟩
          · exact d7 o ho

/-! ## One loss function -/

/-- **C43 (one loss function).** When all batches have the same loss function `f` (for instance, one batch is the whole data set), after
any number of calls every vertex carries its own loss, and the reported loss is the least value of `f` at all the points evaluated so
far; with the default simplex the initial weights are among these, so it is at most the initial loss. -/
theorem C43_single_batch {sort : List (Vertex K) → List (Vertex K)} (hsort : Sorts sort) {n : Nat} (symbols : List String) (f : List K → K)
    (bs : List (List (List String))) (s s' : NM K) (hi : s.Inv n) (h0 : s.first = false → ∀ v ∈ s.sim, v.2 = f v.1)
    (out : List (K × List (List K))) (h : NM.train sort symbols s (bs.map (fun b => (b, f))) = .ok (s', out)) (hne : bs ≠ []) :
    (∀ v ∈ s'.sim, v.2 = f v.1) ∧
    ∃ loss, (out.map Prod.fst).getLast? = some loss ∧ (∃ v ∈ s'.sim, f v.1 = loss) ∧ (∀ v ∈ s'.sim, loss ≤ f v.1) ∧
      (∀ o ∈ out, ∀ p ∈ o.2, loss ≤ f p) ∧ (∀ v ∈ s.sim, loss ≤ f v.1) := by
  induction bs generalizing s out with
  | nil => exact absurd rfl hne
  | cons b bs ih =>
    simp only [List.map_cons, NM.train] at h
    cases hr : s.backward sort symbols b f with
    | error e => rw [hr] at h; cases h
    | ok r =>
      rw [hr] at h
      simp only at h
      obtain ⟨s1, l, pts⟩ := r
      obtain ⟨c1, c2, c3, c4, c5, c6, c7, c8, c9, c10, c11, c12⟩ := C43_backward hsort s s1 hi symbols b f l pts hr
      have hev : ∀ v ∈ s1.sim, v.2 = f v.1 := by
        intro v hv
        rcases c10 v hv with ⟨hf, h⟩ | ⟨h, _⟩
        · exact h0 hf v h
        · exact h
      have hold : ∀ v ∈ s.sim, l ≤ f v.1 := by
        intro v hv
        cases hf : s.first with
        | false => rw [← h0 hf v hv]; exact c8 hf v hv
        | true =>
          refine c9 _ ?_
          obtain ⟨_, _, _, _, _, _, _, rfl, _, _⟩ := backward_parts hr
          simp only [NM.start, hf, if_true]
          exact List.mem_append_left _ (List.mem_map.2 ⟨v, hv, rfl⟩)
      cases hq : NM.train sort symbols s1.step (bs.map (fun b => (b, f))) with
      | error e => rw [hq] at h; cases h
      | ok q =>
        rw [hq] at h
        cases h
        obtain ⟨s2, out2⟩ := q
        by_cases hbs : bs = []
        · subst hbs
          cases hq
          obtain ⟨v0, hv0, hl⟩ := c6
          refine ⟨hev, l, rfl, ⟨v0, hv0, by rw [← hev v0 hv0]; exact hl⟩, fun v hv => by rw [← hev v hv]; exact c7 v hv, ?_, hold⟩
          intro o ho
          simp only [List.mem_singleton] at ho
          subst ho
          exact c9
        · obtain ⟨e1, loss, e2, e3, e4, e5, e6⟩ := ih s1.step (step_inv c1) (fun _ => hev) out2 hq hbs
          have hle : loss ≤ l := by
            obtain ⟨v0, hv0, hl⟩ := c6
            rw [← hl, hev v0 hv0]
            exact e6 v0 hv0
          refine ⟨e1, loss, ?_, e3, e4, ?_, fun v hv => hle.trans (hold v hv)⟩
          · simp only [List.map_cons]
            cases out2 with
            | nil => simp at e2
            | cons a as => simpa [List.getLast?_cons_cons] using e2
          · intro o ho
            rcases List.mem_cons.1 ho with rfl | ho
            · exact fun p hp => hle.trans (c9 p hp)
            · exact e5 o ho

/-! ## Moves -/

/-- The point `c + t (c - x)` on the line from `x` through `c`. -/
def onLine (c x : List K) (t : K) : List K := List.zipWith (fun a b => a + t * (a - b)) c x

/-- The mean of some points, coordinate by coordinate. -/
def IsCentroid (c : List K) (n : Nat) (pts : List (List K)) : Prop :=
  c.length = n ∧ ∀ k < n, c[k]? = some ((pts.map (fun p => p.getD k 0)).sum / (pts.length : K))

theorem onLine_reflect (c x : List K) (t : K) : vsub (vscale (1 + t) c) (vscale t x) = onLine c x t := by
  unfold vsub vscale onLine
  induction c generalizing x with
  | nil => simp
  | cons a c ih => cases x with
    | nil => simp
    | cons b x => simp only [List.map_cons, List.zipWith_cons_cons, ih]; congr 1; ring

theorem onLine_add (c x : List K) (t : K) : vadd c (vscale t (vsub c x)) = onLine c x t := by
  unfold vadd vsub vscale onLine
  induction c generalizing x with
  | nil => simp
  | cons a c ih => cases x with
    | nil => simp
    | cons b x => simp only [List.map_cons, List.zipWith_cons_cons, ih]

theorem onLine_neg (c x : List K) (t : K) : vadd c (vscale t (vsub x c)) = onLine c x (-t) := by
  unfold vadd vsub vscale onLine
  induction c generalizing x with
  | nil => simp
  | cons a c ih => cases x with
    | nil => simp
    | cons b x => simp only [List.map_cons, List.zipWith_cons_cons, ih]; congr 1; ring

theorem centroid_mean {n : Nat} {sim : List (Vertex K)} (hl : sim.length = n + 1) (h : ∀ v ∈ sim, v.1.length = n) :
    IsCentroid (centroid n sim) n (sim.dropLast.map Prod.fst) := by
  refine ⟨centroid_length h, fun k hk => ?_⟩
  have hlen : (sim.dropLast.map Prod.fst).length = n := by simp [hl]
  rw [hlen]
  unfold centroid
  have h' : ∀ p ∈ sim.dropLast.map Prod.fst, p.length = n := by
    intro p hp
    obtain ⟨v, hv, rfl⟩ := List.mem_map.1 hp
    exact h v (List.dropLast_subset _ hv)
  generalize sim.dropLast.map Prod.fst = l at h'
  simp only [List.getElem?_map]
  have : (List.foldr vadd (List.replicate n 0) l)[k]? = some ((l.map (fun p => p.getD k 0)).sum) := by
    clear hl h hlen
    induction l with
    | nil => simp [List.getElem?_replicate, hk]
    | cons p l ih =>
      simp only [List.foldr_cons, vadd, List.getElem?_zipWith, List.map_cons, List.sum_cons]
      have hi := ih (fun q hq => h' q (by simp [hq]))
      rw [hi]
      have hp : k < p.length := by rw [h' p (by simp)]; exact hk
      simp [List.getElem?_eq_getElem hp, List.getD_eq_getElem?_getD]
  rw [this]; rfl

/-- **C43 (moves).** What a call does to the ordered simplex `best, mid, worst` of an earlier call, up to reordering: if the simplex is
smaller than the tolerances, nothing; otherwise the worst vertex is replaced by a strictly better one, a point (projected to the bounds)
on the line from the worst vertex through the mean of the others; or all vertices but the best are moved towards the best by the factor
`sigma`. -/
theorem C43_moves {sort : List (Vertex K) → List (Vertex K)} (hsort : Sorts sort) {n : Nat} (s s' : NM K) (hi : s.Inv n) (hf : s.first = false)
    (best worst : Vertex K) (mid : List (Vertex K)) (hsim : s.sim = best :: (mid ++ [worst]))
    (symbols : List String) (free : List (List String)) (f : List K → K) (loss : K) (pts : List (List K))
    (h : s.backward sort symbols free f = .ok (s', loss, pts)) :
    (s'.sim.Perm s.sim ∧ pts = [] ∧ (∀ v ∈ s.sim, ∀ k < n, |v.1.getD k 0 - best.1.getD k 0| ≤ s.xatol) ∧ ∀ v ∈ s.sim, |best.2 - v.2| ≤ s.fatol) ∨
    (∃ v c t, s'.sim.Perm (best :: (mid ++ [v])) ∧ v.2 = f v.1 ∧ v.2 < worst.2 ∧ IsCentroid c n ((best :: mid).map Prod.fst) ∧
      t ∈ [s.rho, s.rho * s.chi, s.psi * s.rho, -s.psi] ∧ v.1 = clipTo s.bounds (onLine c worst.1 t)) ∨
    (s'.sim.Perm (best :: (mid ++ [worst]).map (fun v =>
      (clipTo s.bounds (onLine best.1 v.1 (-s.sigma)), f (clipTo s.bounds (onLine best.1 v.1 (-s.sigma))))))) := by
  obtain ⟨mask, im, x0, rest, hm, him, hso, rfl, rfl, rfl⟩ := backward_parts h
  have hst : s.start sort f = (s.sim, []) := by simp [NM.start, hf]
  rw [hst] at him
  simp only [hsim] at him
  have hdim : ∀ v ∈ best :: (mid ++ [worst]), v.1.length = n := by rw [← hsim]; exact fun v hv => (hi.inside v hv).1
  have hsz : (best :: (mid ++ [worst])).length = n + 1 := by rw [← hsim]; exact hi.size
  have hn : mid.length + 1 = n := by simpa using hsz
  obtain ⟨m0, ms, hms⟩ : ∃ m0 ms, mid ++ [worst] = m0 :: ms := by cases mid <;> simp
  have him' : im = (if s.converged best (mid ++ [worst]) then (best :: (mid ++ [worst]), []) else s.iterate f best (mid ++ [worst])) := by
    rw [hms] at him ⊢
    simp only [NM.improve] at him
    exact (Except.ok.inj him).symm
  have hperm : (x0 :: rest).Perm im.1 := by rw [← hso]; exact (hsort _).1
  have hby : ByLoss (best :: (mid ++ [worst])) := by rw [← hsim]; exact hi.sorted hf
  cases hc : s.converged best (mid ++ [worst]) with
  | true =>
    left
    rw [if_pos hc] at him'
    subst him'
    refine ⟨by rw [hsim]; exact hperm, by simp [hst], ?_, ?_⟩
    · intro v hv k hk
      rw [hsim] at hv
      simp only [NM.converged, Bool.and_eq_true, List.all_eq_true] at hc
      have hvl := hdim v hv
      have hbl := hdim best (by simp)
      have key : ∀ w : Vertex K, w.1.length = n → allClose s.xatol w.1 best.1 = true → |w.1.getD k 0 - best.1.getD k 0| ≤ s.xatol := by
        intro w hw ha
        simp only [allClose, List.all_eq_true] at ha
        have hk1 : k < w.1.length := by omega
        have hk2 : k < best.1.length := by omega
        have := ha (|w.1[k] - best.1[k]|) (List.mem_iff_getElem.2 ⟨k, by simp [hk1, hk2], by simp⟩)
        simpa [List.getD_eq_getElem?_getD, List.getElem?_eq_getElem hk1, List.getElem?_eq_getElem hk2] using this
      rcases List.mem_cons.1 hv with rfl | hv
      · have h1 := key worst (hdim worst (by simp)) (hc.1 worst (by simp))
        have : (0 : K) ≤ s.xatol := (abs_nonneg _).trans h1
        simpa using this
      · exact key v hvl (hc.1 v hv)
    · intro v hv
      rw [hsim] at hv
      simp only [NM.converged, Bool.and_eq_true, List.all_eq_true, decide_eq_true_eq] at hc
      rcases List.mem_cons.1 hv with rfl | hv
      · have : (0 : K) ≤ s.fatol := (abs_nonneg _).trans (hc.2 worst (by simp))
        simpa using this
      · exact hc.2 v hv
  | false =>
    right
    rw [hc] at him'
    simp only [Bool.false_eq_true, if_false] at him'
    obtain ⟨pts, new, hp, hlen, h⟩ := iterate_cases s f best worst mid hby
    rw [hn] at hp
    rcases h with ⟨v, he, h1, h2, h3, h4⟩ | ⟨rfl, he, h4⟩
    · left
      rw [he] at him'
      subst him'
      have hmean := centroid_mean hsz hdim
      have hdl : (best :: (mid ++ [worst])).dropLast = best :: mid := by rw [← List.cons_append, List.dropLast_concat]
      rw [hdl] at hmean
      refine ⟨v, centroid n (best :: (mid ++ [worst])), ?_⟩
      rcases hp v.1 h2 with hv | hv | hv | hv
      · exact ⟨s.rho, hperm, h1, h3, hmean, by simp, by rw [hv, NM.reflected, onLine_reflect]⟩
      · exact ⟨s.rho * s.chi, hperm, h1, h3, hmean, by simp, by rw [hv, NM.expanded, onLine_add]⟩
      · exact ⟨s.psi * s.rho, hperm, h1, h3, hmean, by simp, by rw [hv, NM.contracted, onLine_add]⟩
      · exact ⟨-s.psi, hperm, h1, h3, hmean, by simp, by rw [hv, NM.insideContracted, onLine_neg]⟩
    · right
      rw [he] at him'
      subst him'
      rw [List.map_map] at hperm
      simp only [NM.shrunk, onLine_neg, Function.comp_def] at hperm
      exact hperm

/-! ## Step -/

theorem zipWith_mul_one (x m : List K) (hl : m.length = x.length) (hm : ∀ k ∈ m, k = 1) : List.zipWith (· * ·) x m = x := by
  induction x generalizing m with
  | nil => simp
  | cons a x ih => cases m with
    | nil => simp at hl
    | cons b m =>
      simp only [List.zipWith_cons_cons]
      rw [ih m (by simpa using hl) (fun k hk => hm k (by simp [hk])), hm b (by simp)]; simp

/-- **C43 (weights).** After `backward` and `step`, if every symbol of the model occurs in the batch (or none does), the weights of the
model are the best vertex, so they are inside the bounds; their loss is the reported loss when that vertex was evaluated on this loss. -/
theorem C43_weights_partial {sort : List (Vertex K) → List (Vertex K)} (hsort : Sorts sort) {n : Nat} (s s' : NM K) (hi : s.Inv n)
    (symbols : List String) (hsym : symbols.length = n) (free : List (List String))
    (hall : (∀ x ∈ symbols, x ∈ free.flatten) ∨ free.flatten = []) (f : List K → K) (loss : K) (pts : List (List K))
    (h : s.backward sort symbols free f = .ok (s', loss, pts)) :
    ∃ v ∈ s'.sim, s'.step.weights = v.1 ∧ v.2 = loss ∧ Inside s.bounds n s'.step.weights := by
  obtain ⟨c1, c2, c3, c4, c5, c6, c7, c8, c9, c10, c11, c12⟩ := C43_backward hsort s s' hi symbols free f loss pts h
  obtain ⟨mask, im, x0, rest, hm, him, hso, rfl, rfl, rfl⟩ := backward_parts h
  refine ⟨x0, by simp, ?_⟩
  have hin : Inside s.bounds n x0.1 := c1.inside x0 (by simp)
  have hmask : mask.length = x0.1.length ∧ ∀ k ∈ mask, k = 1 := by
    cases free with
    | nil => cases hm
    | cons a b =>
      simp only [symbolMask] at hm
      cases hm
      refine ⟨by simp [hsym, hin.1], ?_⟩
      intro k hk
      obtain ⟨x, hx, rfl⟩ := List.mem_map.1 hk
      rcases hall with ha | ha
      · have hxf := ha x hx
        have hnb : ((a :: b).flatten).isEmpty = false := by
          cases hh : (a :: b).flatten with
          | nil => rw [hh] at hxf; simp at hxf
          | cons _ _ => rfl
        simp only [hnb]
        simp only [Bool.false_eq_true, if_false, List.contains_iff_mem, hxf, if_true]
      · simp only [ha]
        simp [hx]
  have hw : (List.zipWith (· * ·) x0.1 mask) = x0.1 := zipWith_mul_one _ _ hmask.1 hmask.2
  simp only [NM.step, hw, clipTo_of_inside hin, true_and]
  exact ⟨by simpa using (foldl_min_sorted c4).symm, hin⟩

/-- **C43 (weights inside the bounds).** After `backward` and `step` the weights of the model are inside the bounds, whichever symbols
occur in the batch. -/
theorem C43_step_inside {sort : List (Vertex K) → List (Vertex K)} (hsort : Sorts sort) {n : Nat} (s s' : NM K) (hi : s.Inv n)
    (symbols : List String) (hsym : symbols.length = n) (free : List (List String)) (f : List K → K) (loss : K) (pts : List (List K))
    (h : s.backward sort symbols free f = .ok (s', loss, pts)) : Inside s.bounds n s'.step.weights := by
  obtain ⟨c1, c2, c3, c4, c5, c6, c7, c8, c9, c10, c11, c12⟩ := C43_backward hsort s s' hi symbols free f loss pts h
  obtain ⟨mask, im, x0, rest, hm, him, hso, rfl, rfl, rfl⟩ := backward_parts h
  have hl : x0.1.length = n := (c1.inside x0 (by simp)).1
  have hmask : mask.length = n := by
    cases free with
    | nil => cases hm
    | cons a b =>
      simp only [symbolMask] at hm
      cases hm
      simp [hsym]
  simp only [NM.step]
  exact clipTo_inside hi.bounds (by simp [hl, hmask])

/-- **C43 (first simplex).** Without bounds and a simplex of the user, the first simplex is the weights and one more vertex for every
parameter, that differs from the weights in this parameter and in no other; so it is not flat. -/
theorem C43_first_simplex (w : List K) (adaptive : Bool) (xatol fatol : K) (s : NM K) (h : NM.init w adaptive none xatol fatol none = .ok s) :
    s.sim.length = w.length + 1 ∧ s.sim.head?.map Prod.fst = some w ∧
    ∀ k < w.length, ∃ v, s.sim[k + 1]? = some v ∧ v.1.length = w.length ∧ ∀ i, (v.1[i]? = w[i]? ↔ i ≠ k) := by
  unfold NM.init at h
  cases hc : (coefficients adaptive w.length : Except PyErr (K × K × K × K)) with
  | error e => rw [hc] at h; cases h
  | ok c =>
    rw [hc] at h
    simp only [bind, Except.bind, initBounds, initRows] at h
    cases h
    refine ⟨by simp, by simp [clipTo], ?_⟩
    intro k hk
    refine ⟨(initVertex w k, 0), by simp [clipTo, hk], by simp [initVertex], ?_⟩
    intro i
    simp only [initVertex, List.getElem?_modify]
    by_cases e : k = i
    · subst e
      simp only [ne_eq, not_true_eq_false, iff_false, List.getElem?_eq_getElem hk, if_true, Option.map_eq_map, Option.map_some, Option.some.injEq]
      by_cases h0 : w[k] = 0
      · simp [h0]
      · simp only [h0, not_false_eq_true, if_true]
        intro e
        have : (5 / 100 : K) * w[k] = 0 := by rw [add_mul, one_mul] at e; exact left_eq_add.1 e.symm
        rcases mul_eq_zero.1 this with h | h
        · norm_num at h
        · exact h0 h
    · cases hh : w[i]? <;> simp [e, Ne.symm e]

/-- Missing from `C43_weights_partial`: batches that do not contain every symbol. **Refuted**: the weight of a symbol that does not occur
in the batch is not kept, nor taken from the simplex, but becomes 0 (projected to its bounds). -/
theorem C43_refuted_absent_symbols {sort : List (Vertex K) → List (Vertex K)} (hsort : Sorts sort) {n : Nat} (s s' : NM K) (hi : s.Inv n)
    (hb : s.bounds = none) (symbols : List String) (hsym : symbols.length = n) (free : List (List String)) (hne : free.flatten ≠ [])
    (f : List K → K) (loss : K) (pts : List (List K)) (h : s.backward sort symbols free f = .ok (s', loss, pts)) (i : Nat) (hin : i < n)
    (habs : symbols[i] ∉ free.flatten) : s'.step.weights[i]? = some 0 := by
  obtain ⟨c1, c2, c3, c4, c5, c6, c7, c8, c9, c10, c11, c12⟩ := C43_backward hsort s s' hi symbols free f loss pts h
  obtain ⟨mask, im, x0, rest, hm, him, hso, rfl, rfl, rfl⟩ := backward_parts h
  have hl : x0.1.length = n := (c1.inside x0 (by simp)).1
  have hmk : mask[i]? = some 0 := by
    cases free with
    | nil => cases hm
    | cons a b =>
      simp only [symbolMask] at hm
      cases hm
      have hnb : ((a :: b).flatten).isEmpty = false := by
        cases hh : (a :: b).flatten with
        | nil => exact absurd hh hne
        | cons _ _ => rfl
      simp only [hnb, List.getElem?_map, List.getElem?_eq_getElem (show i < symbols.length by omega), Option.map_some]
      simp only [Bool.false_eq_true, if_false, List.contains_iff_mem, habs]
  have hx : x0.1[i]? = some (x0.1[i]'(by omega)) := List.getElem?_eq_getElem (by omega)
  simp only [NM.step, hb, clipTo, List.getElem?_zipWith, hmk, hx]
  simp

/-! ## A flat simplex -/

theorem clipTo_get {b : Option (List (K × K))} {n k : Nat} {c : K} {x y : List K} (hy : Inside b n y) (hyk : y[k]? = some c) (hxl : x.length = n)
    (hx : x[k]? = some c) : (clipTo b x)[k]? = some c := by
  cases b with
  | none => exact hx
  | some bds =>
    have h := hy.2 bds rfl
    have hk : k < y.length := by
      rcases Nat.lt_or_ge k y.length with h | h
      · exact h
      · rw [List.getElem?_eq_none h] at hyk; cases hyk
    have hkb : k < bds.length := by rw [h.length_eq]; exact hk
    have hg := List.Forall₂.get h hkb hk
    have hc : y[k] = c := by rw [List.getElem?_eq_getElem hk] at hyk; exact Option.some.inj hyk
    simp only [List.get_eq_getElem, hc] at hg
    simp only [clipTo, List.getElem?_zipWith, hx, List.getElem?_eq_getElem hkb]
    simp [hg.1, hg.2]

theorem onLine_get {c x : List K} {k : Nat} {a : K} (hc : c[k]? = some a) (hx : x[k]? = some a) (t : K) : (onLine c x t)[k]? = some a := by
  simp [onLine, List.getElem?_zipWith, hc, hx]

theorem sum_const (a : K) (l : List (List K)) (k : Nat) (h : ∀ p ∈ l, p[k]? = some a) :
    (l.map (fun p => p.getD k 0)).sum = (l.length : K) * a := by
  induction l with
  | nil => simp
  | cons p l ih =>
    simp only [List.map_cons, List.sum_cons, List.length_cons]
    rw [ih (fun q hq => h q (by simp [hq])), List.getD_eq_getElem?_getD, h p (by simp)]
    simp only [Option.getD_some]; push_cast; ring

theorem mean_const {c : List K} {n k : Nat} {a : K} {pts : List (List K)} (hm : IsCentroid c n pts) (hk : k < n) (hne : pts ≠ [])
    (h : ∀ p ∈ pts, p[k]? = some a) : c[k]? = some a := by
  rw [hm.2 k hk, sum_const a pts k h]
  have : (pts.length : K) ≠ 0 := by
    have := List.length_pos_iff.2 hne
    exact_mod_cast this.ne'
  congr 1; field_simp

theorem shrink_const {s : NM K} {n k : Nat} {a : K} {x y : List K} (hx : Inside s.bounds n x) (hy : y.length = n) (h1 : x[k]? = some a)
    (h2 : y[k]? = some a) (t : K) : (clipTo s.bounds (onLine x y t))[k]? = some a :=
  clipTo_get hx h1 (by simp [onLine, hx.1, hy]) (onLine_get h1 h2 t)

/-- A coordinate in which all vertices agree stays the same, whatever the losses. -/
theorem flat_backward {sort : List (Vertex K) → List (Vertex K)} (hsort : Sorts sort) {n : Nat} (s s' : NM K) (hi : s.Inv n) (hn : 0 < n)
    (symbols : List String) (free : List (List String)) (f : List K → K) (loss : K) (pts : List (List K)) (k : Nat) (hk : k < n) (a : K)
    (hflat : ∀ v ∈ s.sim, v.1[k]? = some a) (h : s.backward sort symbols free f = .ok (s', loss, pts)) : ∀ v ∈ s'.sim, v.1[k]? = some a := by
  have main : ∀ t : NM K, t.Inv n → t.first = false → (∀ v ∈ t.sim, v.1[k]? = some a) →
      ∀ t' l p, t.backward sort symbols free f = .ok (t', l, p) → ∀ v ∈ t'.sim, v.1[k]? = some a := by
    intro t ht hf hfl t' l p hb
    obtain ⟨best, mid, worst, hsim⟩ : ∃ best mid worst, t.sim = best :: (mid ++ [worst]) := by
      have hsz := ht.size
      match hs : t.sim with
      | [] => rw [hs] at hsz; simp at hsz
      | [_] => rw [hs] at hsz; simp at hsz; omega
      | x :: y :: r =>
        obtain ⟨m, w, hw⟩ := (List.eq_nil_or_concat (y :: r)).resolve_left (by simp)
        rw [List.concat_eq_append] at hw
        exact ⟨x, m, w, by rw [hw]⟩
    have hall : ∀ v ∈ best :: (mid ++ [worst]), v.1[k]? = some a := by rw [← hsim]; exact hfl
    have hins : ∀ v ∈ best :: (mid ++ [worst]), Inside t.bounds n v.1 := by rw [← hsim]; exact ht.inside
    rcases C43_moves hsort t t' ht hf best worst mid hsim symbols free f l p hb with ⟨hp, _⟩ | ⟨v, c, τ, hp, _, _, hm, _, hv⟩ | hp
    · intro v hv
      exact hfl v (hp.mem_iff.1 hv)
    · intro w hw
      have := hp.mem_iff.1 hw
      simp only [List.mem_cons, List.mem_append, List.not_mem_nil, or_false] at this
      rcases this with rfl | hw | rfl
      · exact hall _ (by simp)
      · exact hall _ (by simp [hw])
      · rw [hv]
        have hc : c[k]? = some a := mean_const hm hk (by simp) (by
          intro q hq
          obtain ⟨u, hu, rfl⟩ := List.mem_map.1 hq
          refine hall u ?_
          simp only [List.mem_cons, List.mem_append] at hu ⊢
          rcases hu with h | h
          · exact .inl h
          · exact .inr (.inl h))
        have hw := hins worst (by simp)
        exact clipTo_get (hins best (by simp)) (hall best (by simp)) (by simp [onLine, hm.1, hw.1]) (onLine_get hc (hall worst (by simp)) τ)
    · intro w hw
      have := hp.mem_iff.1 hw
      rcases List.mem_cons.1 this with rfl | this
      · exact hall _ (by simp)
      · obtain ⟨u, hu, rfl⟩ := List.mem_map.1 this
        exact shrink_const (hins best (by simp)) (hins u (by simp only [List.mem_cons]; exact .inr hu)).1 (hall best (by simp))
          (hall u (by simp only [List.mem_cons]; exact .inr hu)) _
  cases hf : s.first with
  | false => exact main s hi hf hflat s' loss pts h
  | true =>
    -- the first call is the later call from the evaluated simplex
    obtain ⟨a1, a2, a3, a4, a5, a6⟩ := start_facts hsort hi f
    obtain ⟨mask, im, x0, rest, hm, him, hso, rfl, rfl, rfl⟩ := backward_parts h
    let t : NM K := { s with sim := (s.start sort f).1, first := false }
    have hti : t.Inv n := ⟨a1, a3, hi.bounds, fun _ => a2⟩
    have htf : ∀ v ∈ t.sim, v.1[k]? = some a := by
      intro v hv
      have hv : v ∈ (s.start sort f).1 := hv
      simp only [NM.start, hf, if_true] at hv
      obtain ⟨w, hw, rfl⟩ := List.mem_map.1 ((hsort _).1.mem_iff.1 hv)
      exact hflat w hw
    have hst : t.start sort f = ((s.start sort f).1, []) := by simp [NM.start, t]
    have hti' : t.improve f (s.start sort f).1 = .ok im := him
    have hb : t.backward sort symbols free f = .ok ({ t with sim := x0 :: rest, first := false, ncalls := t.ncalls + im.2.length, weights := im.2.getLastD t.weights, gradient := List.zipWith (· * ·) x0.1 mask }, (rest.map Prod.snd).foldl min x0.2, im.2) := by
      unfold NM.backward
      rw [hm]
      simp only [bind, Except.bind, hst, hti', hso, List.nil_append]
    intro v hv
    exact main t hti rfl htf _ _ _ hb v hv

/-- **C43, refuted: the search covers the box.** A parameter that starts at (or above) a positive upper bound gets a simplex that is flat
in its coordinate (the displaced vertex is projected back), so no history of batches, whatever the losses, ever moves it. -/
theorem C43_refuted_flat_simplex {sort : List (Vertex K) → List (Vertex K)} (hsort : Sorts sort) (w : List K) (adaptive : Bool) (xatol fatol : K)
    (bds : List (K × K)) (k : Nat) (hk : k < w.length) (lo hi : K) (hb : bds[k]? = some (lo, hi)) (hpos : 0 < hi) (hw : hi ≤ w[k]) (s s' : NM K)
    (hinit : NM.init w adaptive none xatol fatol (some bds) = .ok s) (symbols : List String) (bs : List (List (List String) × (List K → K)))
    (out : List (K × List (List K))) (h : NM.train sort symbols s bs = .ok (s', out)) : ∀ v ∈ s'.sim, v.1[k]? = some hi := by
  obtain ⟨hinv, hfirst, hbd, hwt, hmem0⟩ := C43_init w adaptive none xatol fatol (some bds) s hinit
  have hn : 0 < w.length := by omega
  have hflat : ∀ v ∈ s.sim, v.1[k]? = some hi := by
    have hbo := hinv.bounds bds hbd
    have hle : lo ≤ hi := hbo.2 (lo, hi) (List.mem_of_getElem? hb)
    unfold NM.init at hinit
    cases hc : (coefficients adaptive w.length : Except PyErr (K × K × K × K)) with
    | error e => rw [hc] at hinit; cases hinit
    | ok c =>
      rw [hc] at hinit
      simp only [bind, Except.bind] at hinit
      cases hbb : initBounds w (some bds) with
      | error e => rw [hbb] at hinit; cases hinit
      | ok w' =>
        rw [hbb] at hinit
        simp only [initRows] at hinit
        cases hinit
        simp only at hwt
        subst hwt
        have hwk : (clipTo (some bds) w)[k]? = some hi := by
          simp only [clipTo, List.getElem?_zipWith, hb, List.getElem?_eq_getElem hk]
          simp [hw]
        intro v hv
        obtain ⟨r, hr, rfl⟩ := List.mem_map.1 hv
        have key : ∀ y, r[k]? = some y → hi ≤ y → (clipTo (some bds) r)[k]? = some hi := by
          intro y hy hhy
          simp only [clipTo, List.getElem?_zipWith, hb, hy]
          simp [hhy]
        rcases List.mem_cons.1 hr with rfl | hr
        · exact key hi hwk (le_refl _)
        · obtain ⟨j, hj, rfl⟩ := List.mem_map.1 hr
          by_cases hjk : j = k
          · subst hjk
            refine key _ (by simp only [initVertex, List.getElem?_modify, hwk]; rfl) ?_
            simp only [if_true, ne_eq, hpos.ne', not_false_eq_true, id]
            nlinarith
          · exact key hi (by simp only [initVertex, List.getElem?_modify, hwk, hjk]; rfl) (le_refl _)
  clear hinit hbd hwt hfirst hmem0
  induction bs generalizing s out with
  | nil => cases h; exact hflat
  | cons b bs ih =>
    simp only [NM.train] at h
    cases hr : s.backward sort symbols b.1 b.2 with
    | error e => rw [hr] at h; cases h
    | ok r =>
      rw [hr] at h
      simp only at h
      obtain ⟨s1, l, pts⟩ := r
      have hinv1 := (C43_backward hsort s s1 hinv symbols b.1 b.2 l pts hr).1
      have hfl := flat_backward hsort s s1 hinv hn symbols b.1 b.2 l pts k hk hi hflat hr
      cases hq : NM.train sort symbols s1.step bs with
      | error e => rw [hq] at h; cases h
      | ok q =>
        rw [hq] at h
        cases h
        exact ih s1.step q.2 hq (step_inv hinv1) hfl

/-! ## Concrete cases -/

/-- Insertion sort by loss. -/
def demoSort : List (Vertex ℚ) → List (Vertex ℚ) := List.insertionSort (fun a b => a.2 ≤ b.2)

theorem demoSort_sorts : Sorts demoSort := by
  intro l
  refine ⟨List.perm_insertionSort _ l, ?_⟩
  have : Std.Total (fun a b : Vertex ℚ => a.2 ≤ b.2) := ⟨fun a b => le_total a.2 b.2⟩
  have : IsTrans (Vertex ℚ) (fun a b => a.2 ≤ b.2) := ⟨fun a b c h1 h2 => le_trans h1 h2⟩
  exact List.pairwise_insertionSort (fun a b : Vertex ℚ => a.2 ≤ b.2) l

/-- Two parameters in `[0, 10]`, starting at `(4, 8)`. -/
def demoNM : Except PyErr (NM ℚ) := NM.init [4, 8] false none (1 / 10000) (1 / 10000) (some [(0, 10), (0, 10)])

/-- The squared distance to `(1, 2)`. -/
def demoLoss (x : List ℚ) : ℚ := (x.getD 0 0 - 1) ^ 2 + (x.getD 1 0 - 2) ^ 2

/-- The hypotheses of the theorems are met, and the losses really decrease: three batches, the losses reported. -/
example : (do let s ← demoNM; let r ← NM.train demoSort ["a", "b"] s [([["a"], ["b"]], demoLoss), ([["a", "b"]], demoLoss), ([["a", "b"]], demoLoss)]
              pure (r.2.map Prod.fst)) = .ok [3793 / 100, 12937 / 400, 34281 / 1600] := by decide +kernel

/-- **C43, refuted: the loss returned is a loss on the batch.** With a second batch on which every weight has loss 1, the loss returned is
still the 0 of the first. -/
theorem C43_refuted_stale_loss :
    (do let s ← demoNM; let r ← NM.train demoSort ["a", "b"] s [([["a", "b"]], fun _ => 0), ([["a", "b"]], fun _ => 1)]; pure (r.2.map Prod.fst))
      = .ok [0, 0] := by decide +kernel

/-- The case of `C43_refuted_absent_symbols`: `b` is 8, does not occur in the batch, and becomes 0. -/
example : (do let s ← demoNM; let r ← NM.train demoSort ["a", "b"] { s with bounds := none } [([["a"]], demoLoss)]; pure r.1.weights)
    = .ok [43 / 10, 0] := by decide +kernel

/-- The case of `C43_refuted_flat_simplex`: starting at the upper bound. -/
example : (do let s ← NM.init [10, 8] false none (1 / 10000) (1 / 10000) (some [(0, 10), (0, 10)])
              let r ← NM.train demoSort ["a", "b"] s [([["a", "b"]], demoLoss), ([["a", "b"]], demoLoss)]; pure (r.1.sim.map (fun (v : Vertex ℚ) => v.1.getD 0 0)))
    = .ok [10, 10, 10] := by decide +kernel

/-- A model without parameters: `backward` raises. -/
example : (do let s ← NM.init (K := ℚ) [] false none 1 1 none; s.backward demoSort [] [[]] (fun _ => 0)).isOk = false := by decide +kernel

/-! ## C44: saving and loading -/

/-- **C44 (Nelder-Mead).** Loading the saved state into an optimiser for the same weights that was made with the same bounds and the same
`adaptive` flag gives the optimiser saved, after any history, up to the weights (which the checkpoint of the model restores) and the
gradient (which `backward` overwrites before any use). -/
theorem C44_nelder_mead (w w2 : List K) (adaptive : Bool) (simplex simplex2 : Option (List (List K))) (xa fa xa2 fa2 : K)
    (bounds : Option (List (K × K))) (s t s0 : NM K) (sort : List (Vertex K) → List (Vertex K)) (symbols : List String)
    (bs : List (List (List String) × (List K → K))) (out : List (K × List (List K)))
    (h0 : NM.init w adaptive simplex xa fa bounds = .ok s0) (hs : NM.train sort symbols s0 bs = .ok (s, out))
    (ht : NM.init w2 adaptive simplex2 xa2 fa2 bounds = .ok t) (hlen : w2.length = w.length) :
    ∃ g, (t.loadStateDict s.stateDict) = { s with weights := t.weights, gradient := g } := by
  have hconst : ∀ (bs : List (List (List String) × (List K → K))) (s0 s : NM K) (out : List (K × List (List K))),
      NM.train sort symbols s0 bs = .ok (s, out) → s.bounds = s0.bounds ∧ s.rho = s0.rho ∧ s.chi = s0.chi ∧ s.psi = s0.psi ∧ s.sigma = s0.sigma := by
    intro bs
    induction bs with
    | nil => intro s0 s out h; cases h; exact ⟨rfl, rfl, rfl, rfl, rfl⟩
    | cons b bs ih =>
      intro s0 s out h
      simp only [NM.train] at h
      cases hr : s0.backward sort symbols b.1 b.2 with
      | error e => rw [hr] at h; cases h
      | ok r =>
        rw [hr] at h
        simp only at h
        obtain ⟨s1, l, pts⟩ := r
        cases hq : NM.train sort symbols s1.step bs with
        | error e => rw [hq] at h; cases h
        | ok q =>
          rw [hq] at h
          cases h
          have := ih s1.step q.1 q.2 hq
          obtain ⟨mask, im, x0, rest, hm, him, hso, rfl, rfl, rfl⟩ := backward_parts hr
          exact this
  obtain ⟨k1, k2, k3, k4, k5⟩ := hconst bs s0 s out hs
  have hinit : ∀ (w : List K) simplex (xa fa : K) (s0 : NM K), NM.init w adaptive simplex xa fa bounds = .ok s0 →
      s0.bounds = bounds ∧ coefficients adaptive w.length = .ok (s0.rho, s0.chi, s0.psi, s0.sigma) := by
    intro w simplex xa fa s0 h
    unfold NM.init at h
    cases hc : (coefficients adaptive w.length : Except PyErr (K × K × K × K)) with
    | error e => rw [hc] at h; cases h
    | ok c =>
      rw [hc] at h
      simp only [bind, Except.bind] at h
      cases hb : initBounds w bounds with
      | error e => rw [hb] at h; cases h
      | ok w' =>
        rw [hb] at h
        simp only at h
        cases hr : initRows w' simplex with
        | error e => rw [hr] at h; cases h
        | ok rows => rw [hr] at h; cases h; exact ⟨rfl, rfl⟩
  obtain ⟨a1, a2⟩ := hinit w simplex xa fa s0 h0
  obtain ⟨b1, b2⟩ := hinit w2 simplex2 xa2 fa2 t ht
  rw [hlen, a2] at b2
  simp only [Except.ok.injEq, Prod.mk.injEq] at b2
  refine ⟨t.gradient, ?_⟩
  cases s; cases t
  simp only [NM.loadStateDict, NM.stateDict] at *
  simp [k1, k2, k3, k4, k5, a1, b1, b2]

theorem backward_irrel (sort : List (Vertex K) → List (Vertex K)) (symbols : List String) (free : List (List String)) (f : List K → K) (s : NM K)
    (w g : List K) : (∃ e, s.backward sort symbols free f = .error e ∧ ({ s with weights := w, gradient := g } : NM K).backward sort symbols free f = .error e) ∨
      ∃ s1 w1 l pts, s.backward sort symbols free f = .ok (s1, l, pts) ∧
        ({ s with weights := w, gradient := g } : NM K).backward sort symbols free f = .ok ({ s1 with weights := w1 }, l, pts) := by
  have h1 : ({ s with weights := w, gradient := g } : NM K).start sort f = s.start sort f := rfl
  have h2 : ∀ sim, ({ s with weights := w, gradient := g } : NM K).improve f sim = s.improve f sim := by
    intro sim
    match sim with
    | [] => rfl
    | [_] => rfl
    | _ :: _ :: _ => rfl
  unfold NM.backward
  rw [h1]
  cases hm : (symbolMask symbols free : Except PyErr (List K)) with
  | error e => exact .inl ⟨e, rfl, rfl⟩
  | ok mask =>
    simp only [bind, Except.bind, h2]
    cases hi : s.improve f (s.start sort f).1 with
    | error e => exact .inl ⟨e, rfl, rfl⟩
    | ok im =>
      simp only
      cases hs : sort im.1 with
      | nil => exact .inl ⟨_, rfl, rfl⟩
      | cons x0 rest => exact .inr ⟨_, _, _, _, rfl, rfl⟩

/-- **C44 (Nelder-Mead, continuing).** The weights and the gradient that are not saved make no difference to what the optimiser does on
the batches that follow: the same losses, the same points, the same final state. -/
theorem C44_nelder_mead_continues (sort : List (Vertex K) → List (Vertex K)) (symbols : List String)
    (bs : List (List (List String) × (List K → K))) (hbs : bs ≠ []) (s : NM K) (w g : List K) :
    NM.train sort symbols { s with weights := w, gradient := g } bs = NM.train sort symbols s bs := by
  cases bs with
  | nil => exact absurd rfl hbs
  | cons b bs =>
    simp only [NM.train]
    rcases backward_irrel sort symbols b.1 b.2 s w g with ⟨e, h1, h2⟩ | ⟨s1, w1, l, pts, h1, h2⟩
    · rw [h1, h2]
    · rw [h1, h2]
      rfl

/-- **C44, refuted for `adaptive`.** The flag is saved and restored, but the coefficients that depend on it are not: a default optimiser
that loads the state of an adaptive one claims to be adaptive and goes on with the default coefficients. -/
theorem C44_refuted_adaptive :
    (do let s ← NM.init (K := ℚ) [1, 2, 3] true none 1 1 none
        let t ← NM.init (K := ℚ) [1, 2, 3] false none 1 1 none
        let u := t.loadStateDict s.stateDict
        pure (s.adaptive, u.adaptive, s.chi, u.chi)) = .ok (true, true, 5 / 3, 2) := by decide +kernel

end Train
end Lambeq
