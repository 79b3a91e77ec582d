import Verif.Training.Predict
import Verif.Quantum.CircuitalRefuted
import Verif.Quantum.ExportRefuted

/-!
# Models that run on a t|ket⟩ backend (C100)

Models training/tket_model.py: `__init__` (42-65), `get_diagram_output` (70-112), `forward` (114-132), and the batch form of `Diagram.eval` with a backend (quantum.py:347-367, converters/tk.py:157-195).

Simplifications: the diagrams are those after the substitution of the weights (C79), so that of weights and symbols only the numbers are read. The values of the configuration are numbered. The passes of
`compilation` leave a circuit as it is, up to equivalence. What the backend returns is a function of the number of shots and of the circuit: an exact backend, or one with a fixed seed.
An array with axes of dimension 2 is the number of its axes with its entries.
-/

namespace Lambeq
namespace TketModel
open QBox Diagram Predict
set_option linter.unusedSectionVars false
set_option linter.unusedSimpArgs false

noncomputable section

/-- `backend_config`: keys and values. -/
abbrev Config := List (String × Nat)

/-- tket_model.py:59 -/
def fields : List String := ["backend", "compilation", "shots"]

/-- tket_model.py:57-65 -/
def init (cfg : Config) : Except PyErr Config :=
  if (fields.filter (fun f => !(cfg.map Prod.fst).contains f)) ≠ [] then .error .keyError else .ok cfg

/-- tk.py:162: `params.get('n_shots', 2**10)`, where `params` are the fields of the configuration (tket_model.py:103, quantum.py:352). -/
def nShots (cfg : Config) : Nat := (cfg.lookup "n_shots").getD 1024

/-- tket_model.py:97: `diagram >> Id().tensor(*[Measure()] * len(diagram.cod))` -/
def measureAll (d : Diagram QOb QBox) : Except PyErr (Diagram QOb QBox) :=
  andThen d (tensorN (Diagram.id [] :: List.replicate d.cod.length (ofBox measure)))

/-- quantum.py:350 -/
def exports : List (Diagram QOb QBox) → Except PyErr (List TkCircuit)
  | [] => .ok []
  | d :: ds => match toTk d with
    | .error e => .error e
    | .ok c => match exports ds with
      | .error e => .error e
      | .ok cs => .ok (c :: cs)

/-- quantum.py:351-366 for one circuit: what is made of the counts that the backend returned. -/
def tkResult (c : TkCircuit) (counts : Counts) : Except PyErr (Nat × (List Nat → ℝ)) :=
  match getCounts c counts with
  | .error e => .error e
  | .ok r => resultOf c r

/-- quantum.py:354-366 -/
def results (run : TkCircuit → Counts) : List TkCircuit → Except PyErr (List (Nat × (List Nat → ℝ)))
  | [] => .ok []
  | c :: cs => match tkResult c (run c) with
    | .error e => .error e
    | .ok r => match results run cs with
      | .error e => .error e
      | .ok rs => .ok (r :: rs)

/-- `Circuit.eval(*measured, ...)`, tket_model.py:101-105: without diagrams the call lacks `self`. The list stands for the single array that is returned for one diagram (quantum.py:367). -/
def evalBatch (run : TkCircuit → Counts) (ds : List (Diagram QOb QBox)) : Except PyErr (List (Nat × (List Nat → ℝ))) :=
  if ds = [] then .error .typeError
  else match exports ds with
    | .error e => .error e
    | .ok cs => results run cs

/-- tket_model.py:97-98 -/
def measureEach : List (Diagram QOb QBox) → Except PyErr (List (Diagram QOb QBox))
  | [] => .ok []
  | d :: ds => match measureAll d with
    | .error e => .error e
    | .ok m => match measureEach ds with
      | .error e => .error e
      | .ok ms => .ok (m :: ms)

/-- tket_model.py:109-112: rows of different shapes make no array. -/
def stackRows (rs : List (Nat × (List Nat → ℝ))) : Except PyErr (Nat × List (List Nat → ℝ)) :=
  match rs with
  | [] => .ok (0, [])
  | r :: rs => if rs.all (fun s => decide (s.1 = r.1)) then .ok (r.1, (r :: rs).map (fun s => normaliseVector s.1 (fun x => ((s.2 x : ℝ) : ℂ)))) else .error .valueError

/-- `forward`, tket_model.py:70-132, with `nw` weights and `ns` symbols: the number of axes of every row, and the rows. `run n c` is what the backend returns for `n` shots of the circuit `c`. -/
def forward (run : Nat → TkCircuit → Counts) (cfg : Config) (nw ns : Nat) (ds : List (Diagram QOb QBox)) : Except PyErr (Nat × List (List Nat → ℝ)) :=
  if nw = 0 ∨ ns = 0 then .error .valueError
  else match measureEach ds with
    | .error e => .error e
    | .ok ms => match evalBatch (run (nShots cfg)) ms with
      | .error e => .error e
      | .ok rs => stackRows rs

/-! ## Specification -/

/-- The backend returned the exact probabilities of the outcomes. -/
structure Exact (c : TkCircuit) (counts : Counts) : Prop where
  len : ∀ e ∈ counts, e.1.length = c.nBits
  nodup : (counts.map Prod.fst).Nodup
  prob : ∀ s, Bits c.nBits s → counts.get s = c.prob s

/-! ## Configuration -/

/-- **C100 (configuration).** A model is made exactly when the fields `backend`, `compilation` and `shots` are all given; otherwise `KeyError`. -/
theorem C100_init (cfg : Config) : (init cfg = .error .keyError ↔ ∃ f ∈ ["backend", "compilation", "shots"], f ∉ cfg.map Prod.fst) ∧
    (init cfg = .ok cfg ↔ ∀ f ∈ ["backend", "compilation", "shots"], f ∈ cfg.map Prod.fst) := by
  show (init cfg = .error .keyError ↔ ∃ f ∈ fields, f ∉ cfg.map Prod.fst) ∧ (init cfg = .ok cfg ↔ ∀ f ∈ fields, f ∈ cfg.map Prod.fst)
  have key : fields.filter (fun f => !(cfg.map Prod.fst).contains f) ≠ [] ↔ ∃ f ∈ fields, f ∉ cfg.map Prod.fst := by
    rw [ne_eq, List.filter_eq_nil_iff]
    push Not
    simp only [Bool.not_eq_true', List.contains_eq_mem, decide_eq_false_iff_not]
  unfold init
  by_cases h : fields.filter (fun f => !(cfg.map Prod.fst).contains f) ≠ []
  · rw [if_pos h]
    refine ⟨⟨fun _ => key.1 h, fun _ => rfl⟩, ⟨fun e => (by cases e), fun hall => ?_⟩⟩
    obtain ⟨f, hf, hn⟩ := key.1 h
    exact absurd (hall f hf) hn
  · rw [if_neg h]
    refine ⟨⟨fun e => (by cases e), fun hex => absurd (key.2 hex) h⟩, ⟨fun _ f hf => ?_, fun _ => rfl⟩⟩
    by_contra hn
    exact h (key.2 ⟨f, hf, hn⟩)

example : init [("backend", 0), ("compilation", 1), ("shots", 8192)] = .ok [("backend", 0), ("compilation", 1), ("shots", 8192)] ∧ init [("backend", 0)] = .error .keyError := by
  constructor
  · exact (C100_init _).2.2 (by simp [fields])
  · exact (C100_init _).1.2 (by simp [fields])

/-- **C100 (shots, refuted).** The field `shots` that must be given has no effect: the circuits are run with the number of shots in `n_shots`, which is 1024 when that field is not given. -/
theorem C100_shots_refuted (run : Nat → TkCircuit → Counts) (b c s nw ns : Nat) (ds : List (Diagram QOb QBox)) :
    forward run [("backend", b), ("compilation", c), ("shots", s)] nw ns ds = forward (fun _ => run 1024) [("backend", b), ("compilation", c), ("shots", s)] nw ns ds := by
  have h : nShots [("backend", b), ("compilation", c), ("shots", s)] = 1024 := by simp [nShots, List.lookup]
  unfold forward
  rw [h]

/-! ## Errors and rows -/

/-- **C100 (not initialised).** Without weights or without symbols: `ValueError`. -/
theorem C100_untrained (run : Nat → TkCircuit → Counts) (cfg : Config) (nw ns : Nat) (ds : List (Diagram QOb QBox)) (h : nw = 0 ∨ ns = 0) : forward run cfg nw ns ds = .error .valueError := by
  rw [forward, if_pos h]

/-- **C100 (no diagrams).** A batch without diagrams: `TypeError` from the call of `eval` without an object. -/
theorem C100_empty (run : Nat → TkCircuit → Counts) (cfg : Config) {nw ns : Nat} (hw : nw ≠ 0) (hs : ns ≠ 0) : forward run cfg nw ns [] = .error .typeError := by
  rw [forward, if_neg (by simp [hw, hs])]; rfl

/-- The result for one diagram before it is normalised. -/
def one (run : Nat → TkCircuit → Counts) (cfg : Config) (d : Diagram QOb QBox) : Except PyErr (Nat × (List Nat → ℝ)) :=
  match measureAll d with
  | .error e => .error e
  | .ok m => match toTk m with
    | .error e => .error e
    | .ok c => tkResult c (run (nShots cfg) c)

/-- The prediction made of it. -/
def row (r : Nat × (List Nat → ℝ)) : List Nat → ℝ := normaliseVector r.1 (fun x => ((r.2 x : ℝ) : ℂ))

/-- The results of a batch, before the array is made. -/
def batch (run : Nat → TkCircuit → Counts) (cfg : Config) (ds : List (Diagram QOb QBox)) : Except PyErr (List (Nat × (List Nat → ℝ))) :=
  match measureEach ds with
  | .error e => .error e
  | .ok ms => match exports ms with
    | .error e => .error e
    | .ok cs => results (run (nShots cfg)) cs

theorem batch_cons (run : Nat → TkCircuit → Counts) (cfg : Config) (d : Diagram QOb QBox) (ds : List (Diagram QOb QBox)) (rs : List (Nat × (List Nat → ℝ))) :
    batch run cfg (d :: ds) = .ok rs ↔ ∃ r rs', rs = r :: rs' ∧ one run cfg d = .ok r ∧ batch run cfg ds = .ok rs' := by
  unfold batch one
  simp only [measureEach]
  cases h1 : measureAll d with
  | error e => simp
  | ok m =>
    cases h2 : measureEach ds with
    | error e => simp
    | ok ms =>
      simp only [exports]
      cases h3 : toTk m with
      | error e => simp
      | ok c =>
        simp only
        cases h4 : exports ms with
        | error e => simp
        | ok cs =>
          simp only [results]
          cases h5 : tkResult c (run (nShots cfg) c) with
          | error e => simp
          | ok r =>
            simp only
            cases h6 : results (run (nShots cfg)) cs with
            | error e => simp
            | ok rs' =>
              simp only [Except.ok.injEq]
              constructor
              · intro h; exact ⟨r, rs', h.symm, rfl, rfl⟩
              · rintro ⟨r', rs'', h, h', h''⟩; rw [h, h', h'']

theorem batch_nil (run : Nat → TkCircuit → Counts) (cfg : Config) : batch run cfg [] = .ok [] := rfl

theorem batch_ok (run : Nat → TkCircuit → Counts) (cfg : Config) (ds : List (Diagram QOb QBox)) (rs : List (Nat × (List Nat → ℝ))) :
    batch run cfg ds = .ok rs ↔ List.Forall₂ (fun d r => one run cfg d = .ok r) ds rs := by
  induction ds generalizing rs with
  | nil => rw [batch_nil]; simp [eq_comm]
  | cons d ds ih =>
    rw [batch_cons, List.forall₂_cons_left_iff]
    constructor
    · rintro ⟨r, rs', rfl, h1, h2⟩; exact ⟨r, rs', h1, (ih rs').1 h2, rfl⟩
    · rintro ⟨r, rs', h1, h2, rfl⟩; exact ⟨r, rs', rfl, h1, (ih rs').2 h2⟩

theorem forward_eq (run : Nat → TkCircuit → Counts) (cfg : Config) {nw ns : Nat} (hw : nw ≠ 0) (hs : ns ≠ 0) {ds : List (Diagram QOb QBox)} (hd : ds ≠ []) :
    forward run cfg nw ns ds = match batch run cfg ds with | .error e => .error e | .ok rs => stackRows rs := by
  rw [forward, if_neg (by simp [hw, hs]), batch]
  cases h : measureEach ds with
  | error e => rfl
  | ok ms =>
    have hm : ms ≠ [] := by
      obtain ⟨d, ds, rfl⟩ := List.exists_cons_of_ne_nil hd
      simp only [measureEach] at h
      split at h
      · cases h
      · split at h
        · cases h
        · cases h; simp
    simp only [evalBatch, if_neg hm]

theorem stackRows_ok {rs : List (Nat × (List Nat → ℝ))} (hne : rs ≠ []) {n : Nat} {rows : List (List Nat → ℝ)} :
    stackRows rs = .ok (n, rows) ↔ (∀ r ∈ rs, r.1 = n) ∧ rows = rs.map row := by
  obtain ⟨r, rs, rfl⟩ := List.exists_cons_of_ne_nil hne
  simp only [stackRows]
  by_cases h : rs.all (fun s => decide (s.1 = r.1)) = true
  · rw [if_pos h]
    simp only [List.all_eq_true, decide_eq_true_eq] at h
    simp only [Except.ok.injEq, Prod.mk.injEq, List.forall_mem_cons]
    constructor
    · rintro ⟨rfl, e⟩; exact ⟨⟨rfl, h⟩, e.symm⟩
    · rintro ⟨⟨e, -⟩, e'⟩; exact ⟨e, e'.symm⟩
  · rw [if_neg h]
    simp only [List.all_eq_true, decide_eq_true_eq] at h
    simp only [reduceCtorEq, false_iff, List.forall_mem_cons, not_and]
    rintro ⟨rfl, h'⟩ _
    exact h h'

theorem forward_one (run : Nat → TkCircuit → Counts) (cfg : Config) {nw ns : Nat} (hw : nw ≠ 0) (hs : ns ≠ 0) (d : Diagram QOb QBox) (n : Nat) (rows : List (List Nat → ℝ)) :
    forward run cfg nw ns [d] = .ok (n, rows) ↔ ∃ r, one run cfg d = .ok r ∧ r.1 = n ∧ rows = [row r] := by
  rw [forward_eq run cfg hw hs (by simp)]
  cases h : batch run cfg [d] with
  | error e =>
    simp only [reduceCtorEq, false_iff, not_exists, not_and]
    intro r hr
    have := (batch_ok run cfg [d] [r]).2 (by simp [hr])
    rw [h] at this; cases this
  | ok rs =>
    have hf := (batch_ok _ _ _ _).1 h
    obtain ⟨r, rs', hr, hn, rfl⟩ := List.forall₂_cons_left_iff.1 hf
    cases hn
    simp only [stackRows_ok (List.cons_ne_nil _ _), List.mem_singleton, forall_eq, List.map_cons, List.map_nil]
    constructor
    · rintro ⟨h1, h2⟩; exact ⟨r, hr, h1, h2⟩
    · rintro ⟨r', h1, h2, h3⟩; rw [hr] at h1; cases h1; exact ⟨h2, h3⟩

/-- **C100 (rows).** The prediction has one row per diagram, in order, and each row is the prediction for its diagram alone. -/
theorem C100_rows (run : Nat → TkCircuit → Counts) (cfg : Config) {nw ns n : Nat} {ds : List (Diagram QOb QBox)} {rows : List (List Nat → ℝ)} (h : forward run cfg nw ns ds = .ok (n, rows)) :
    rows.length = ds.length ∧ ∀ (i : Nat) d, ds[i]? = some d → ∃ p, rows[i]? = some p ∧ forward run cfg nw ns [d] = .ok (n, [p]) := by
  by_cases hz : nw = 0 ∨ ns = 0
  · rw [C100_untrained _ _ _ _ _ hz] at h; cases h
  · push Not at hz
    by_cases hd : ds = []
    · rw [hd, C100_empty _ _ hz.1 hz.2] at h; cases h
    · rw [forward_eq run cfg hz.1 hz.2 hd] at h
      cases hb : batch run cfg ds with
      | error e => rw [hb] at h; cases h
      | ok rs =>
        rw [hb] at h
        have hf := (batch_ok _ _ _ _).1 hb
        have hne : rs ≠ [] := by
          intro e; rw [e] at hf; exact hd (List.forall₂_nil_right_iff.1 hf)
        obtain ⟨h1, rfl⟩ := (stackRows_ok hne).1 h
        refine ⟨by rw [List.length_map, hf.length_eq], fun i d hi => ?_⟩
        have hlt : i < ds.length := by
          by_contra hge
          rw [List.getElem?_eq_none (by omega)] at hi; cases hi
        have hlt' : i < rs.length := hf.length_eq ▸ hlt
        have ho := (List.forall₂_iff_get.1 hf).2 i hlt hlt'
        rw [List.getElem?_eq_getElem hlt] at hi
        cases hi
        refine ⟨row rs[i], by rw [List.getElem?_map, List.getElem?_eq_getElem hlt']; rfl, ?_⟩
        exact (forward_one run cfg hz.1 hz.2 _ _ _).2 ⟨rs[i], ho, h1 _ (List.getElem_mem _), rfl⟩

/-- **C100 (batches).** If the diagrams of a batch have predictions of the same shape then the batch has a prediction. -/
theorem C100_batch (run : Nat → TkCircuit → Counts) (cfg : Config) {nw ns n : Nat} {ds : List (Diagram QOb QBox)} (hd : ds ≠ [])
    (h : ∀ d ∈ ds, ∃ p, forward run cfg nw ns [d] = .ok (n, [p])) : ∃ rows, forward run cfg nw ns ds = .ok (n, rows) := by
  by_cases hz : nw = 0 ∨ ns = 0
  · obtain ⟨d, ds, rfl⟩ := List.exists_cons_of_ne_nil hd
    obtain ⟨p, hp⟩ := h d (by simp)
    rw [C100_untrained _ _ _ _ _ hz] at hp; cases hp
  · push Not at hz
    have key : ∀ ds : List (Diagram QOb QBox), (∀ d ∈ ds, ∃ p, forward run cfg nw ns [d] = .ok (n, [p])) →
        ∃ rs, List.Forall₂ (fun d r => one run cfg d = .ok r) ds rs ∧ ∀ r ∈ rs, r.1 = n := by
      intro ds
      induction ds with
      | nil => intro _; exact ⟨[], .nil, by simp⟩
      | cons d ds ih =>
        intro h
        obtain ⟨rs, h1, h2⟩ := ih (fun d hd => h d (List.mem_cons_of_mem _ hd))
        obtain ⟨p, hp⟩ := h d (by simp)
        obtain ⟨r, hr, hn, -⟩ := (forward_one run cfg hz.1 hz.2 _ _ _).1 hp
        exact ⟨r :: rs, .cons hr h1, by simpa [hn] using h2⟩
    obtain ⟨rs, h1, h2⟩ := key ds h
    have hne : rs ≠ [] := by
      intro e; rw [e] at h1; exact hd (List.forall₂_nil_right_iff.1 h1)
    refine ⟨rs.map row, ?_⟩
    rw [forward_eq run cfg hz.1 hz.2 hd, (batch_ok _ _ _ _).2 h1]
    exact (stackRows_ok hne).2 ⟨h2, rfl⟩

/-- **C100 (shapes).** Diagrams with predictions of different shapes cannot be in one batch: `ValueError`. -/
theorem C100_shapes (run : Nat → TkCircuit → Counts) (cfg : Config) {nw ns n n' : Nat} {d d' : Diagram QOb QBox} {p p' : List (List Nat → ℝ)} (h : forward run cfg nw ns [d] = .ok (n, p))
    (h' : forward run cfg nw ns [d'] = .ok (n', p')) (hn : n ≠ n') : forward run cfg nw ns [d, d'] = .error .valueError := by
  by_cases hz : nw = 0 ∨ ns = 0
  · rw [C100_untrained _ _ _ _ _ hz] at h; cases h
  · push Not at hz
    obtain ⟨r, h1, h2, -⟩ := (forward_one run cfg hz.1 hz.2 _ _ _).1 h
    obtain ⟨r', h1', h2', -⟩ := (forward_one run cfg hz.1 hz.2 _ _ _).1 h'
    rw [forward_eq run cfg hz.1 hz.2 (by simp), (batch_ok run cfg [d, d'] [r, r']).2 (by simp [h1, h1'])]
    have : ¬ r'.1 = r.1 := by rw [h2, h2']; exact fun e => hn e.symm
    simp [stackRows, this]

end
end TketModel
end Lambeq
