import Verif.Training.PathOpt

/-!
# The cache of contraction paths

Models `CachedTnPathOptimizer` of `lambeq/training/tn_path_optimizer.py` (129-265) together with the contractor that uses it, through calls,
checkpoints, restarts of the process and crashes while the save file is written.
-/

namespace Lambeq.PathOpt
set_option linter.unusedSectionVars false
set_option linter.unusedSimpArgs false

variable {E R : Type} [DecidableEq E] [CommSemiring R]

/-- tn_path_optimizer.py:45-55: keep the first occurrence of everything. -/
def dedupFirst (seen : List E) : List E → List E
  | [] => []
  | x :: xs => if x ∈ seen then dedupFirst seen xs else x :: dedupFirst (x :: seen) xs

/-- tn_path_optimizer.py:375-379 -/
def edgeList (nodes : List (TNode E R)) : List E := dedupFirst [] (nodes.flatMap (·.edges))

/-- tn_path_optimizer.py:228 and 231: the sorted symbols of a set of edges. The symbol of an edge stands for its position in the list of edges (`oe.get_symbol`
is injective); sorting by position and sorting by symbol give the same tuple exactly for the same sets. -/
def positions (el s : List E) : List Nat := (List.range el.length).filter (fun i => el[i]?.any (· ∈ s))

/-- tn_path_optimizer.py:39-42 -/
structure Key where
  inputs : List (List Nat)
  output : List Nat
  sizes : List (Nat × Nat)
  deriving DecidableEq

/-- tn_path_optimizer.py:218-232 -/
def keyOf (dim : E → Nat) (nodes : List (TNode E R)) : Key :=
  let el := edgeList nodes
  ⟨nodes.map (fun n => positions el n.edges), positions el (dangling nodes), el.zipIdx.map (fun p => (p.2, dim p.1))⟩

/-- The dictionary of paths. -/
abbrev Cache := List (Key × Path)

def Cache.get (c : Cache) (k : Key) : Option Path := (c.find? (fun e => e.1 = k)).map (·.2)

/-- The save file: it does not exist, is a directory, is empty, is a damaged pickle, or holds a pickled dictionary. -/
inductive File
  | missing | dir | empty | torn | pickle (c : Cache)

inductive OptErr
  | isADirectory | unpickling | py (e : PyErr)
  deriving DecidableEq

/-- The optimizer, with its save file if it has one, and the checkpoint that was last stored. -/
structure Opt where
  cache : Cache
  file : Option File
  saved : Option Cache

/-- tn_path_optimizer.py:186-200: the constructor, when a process starts. -/
def Opt.start (file : Option File) (saved : Option Cache) : Except OptErr Opt :=
  match file with
  | none => .ok ⟨[], none, saved⟩
  | some .missing => .ok ⟨[], some .dir, saved⟩
  | some .dir => .error .isADirectory
  | some .empty => .ok ⟨[], some .empty, saved⟩
  | some .torn => .error .unpickling
  | some (.pickle c) => .ok ⟨c, some (.pickle c), saved⟩

/-- tn_path_optimizer.py:244-252. The new paths are in memory before the file is written. -/
def Opt.addPaths (o : Opt) (new : Cache) : Opt × Except OptErr Unit :=
  let c := new ++ o.cache
  match o.file with
  | none => (⟨c, none, o.saved⟩, .ok ())
  | some .dir => (⟨c, some .dir, o.saved⟩, .error .isADirectory)
  | some _ => (⟨c, some (.pickle c), o.saved⟩, .ok ())

/-- tn_path_optimizer.py:202-242; `fallback` is the path that `opt_einsum` would find. -/
def Opt.call (o : Opt) (k : Key) (fallback : Path) : Opt × Except OptErr Path :=
  match o.cache.get k with
  | some p => (o, .ok p)
  | none =>
    match o.addPaths [(k, fallback)] with
    | (o, .error e) => (o, .error e)
    | (o, .ok ()) =>
      match o.cache.get k with
      | some p => (o, .ok p)
      | none => (o, .error (.py .keyError))

def liftErr {α : Type} : Except PyErr α → Except OptErr α
  | .ok x => .ok x
  | .error e => .error (.py e)

/-- tn_path_optimizer.py:268-349 with the cached optimizer. -/
def Opt.contract (o : Opt) (dim : E → Nat) (nodes : List (TNode E R)) (order : List E) (fallback : Path) : Opt × Except OptErr (TNode E R) :=
  match outputOrder nodes (some order) with
  | .error e => (o, .error (.py e))
  | .ok _ =>
    if nodes.length = 1 then (o, liftErr (contractor dim nodes (fun _ => .error .valueError) (some order)))
    else
      match o.call (keyOf dim (nodes.filter (fun n => !n.hasTrace))) fallback with
      | (o, .error e) => (o, .error e)
      | (o, .ok p) => (o, liftErr (contractor dim nodes (fun _ => .ok p) (some order)))

/-- What happens to an optimizer. -/
inductive Event (E R : Type)
  /-- a contraction; `opt_einsum` would find `fallback` -/
  | contract (nodes : List (TNode E R)) (order : List E) (fallback : Path)
  /-- `add_paths` by the user -/
  | addPaths (new : Cache)
  /-- `store_to_checkpoint` with `save_checkpoints=True` (254-260) -/
  | store
  /-- `restore_from_checkpoint` (262-265) -/
  | restore
  /-- the process ends and another one starts -/
  | restart
  /-- the process dies while the save file is written, leaving `left`, and another one starts -/
  | crash (left : File)

/-- One event: the optimizer afterwards, and what the caller sees (`none`: nothing to see). If the constructor raises there is no new optimizer; the old one
stands for the fact that nothing was changed. -/
def Opt.step (dim : E → Nat) (o : Opt) : Event E R → Opt × Option (Except OptErr (Option (TNode E R)))
  | .contract nodes order fallback => let r := o.contract dim nodes order fallback; (r.1, some (r.2.map some))
  | .addPaths new => let r := o.addPaths new; (r.1, some (r.2.map (fun _ => none)))
  | .store => (⟨o.cache, o.file, some o.cache⟩, none)
  | .restore => (⟨o.saved.getD o.cache, o.file, o.saved⟩, none)
  | .restart =>
    match Opt.start o.file o.saved with
    | .ok o => (o, none)
    | .error e => (o, some (.error e))
  | .crash left =>
    let file := o.file.map (fun _ => left)
    match Opt.start file o.saved with
    | .ok o => (o, none)
    | .error e => (⟨o.cache, file, o.saved⟩, some (.error e))

/-- A history: what the callers see. -/
def Opt.run (dim : E → Nat) (o : Opt) : List (Event E R) → List (Option (Except OptErr (Option (TNode E R))))
  | [] => []
  | e :: es => (o.step dim e).2 :: Opt.run dim (o.step dim e).1 es

/-! ## Specification -/

/-- The paths of a dictionary contract as many nodes as their keys have inputs. -/
def GoodCache (c : Cache) : Prop := ∀ e ∈ c, ValidPath e.1.inputs.length e.2

/-- A network that is contracted with a listing of its open edges, and a path found by `opt_einsum` for it. -/
structure GoodCall (nodes : List (TNode E R)) (order : List E) (fallback : Path) : Prop where
  graph : Graph nodes
  free : TraceFree nodes
  nodup : order.Nodup
  out : ∀ e, e ∈ order ↔ (nodes.flatMap (·.edges)).count e = 1
  path : ValidPath nodes.length fallback

/-- The paths that enter from outside are paths for their keys; a damaged file is not a dictionary. -/
def GoodEvent : Event E R → Prop
  | .contract nodes order fallback => GoodCall nodes order fallback
  | .addPaths new => GoodCache new
  | .crash left => ∀ c, left = .pickle c → GoodCache c
  | _ => True

/-- What a contraction has to return: the axes in the given order, and the sum over all edges that are not open. -/
def Right (dim : E → Nat) (nodes : List (TNode E R)) (order : List E) (n : TNode E R) : Prop :=
  n.edges = order ∧ ∀ idx, n.tensor idx = fullSum dim nodes (assign order idx)

structure GoodOpt (o : Opt) : Prop where
  cache : GoodCache o.cache
  file : ∀ c, o.file = some (.pickle c) → GoodCache c
  saved : ∀ c, o.saved = some c → GoodCache c

/-! ## Proofs -/

theorem GoodCache.get {c : Cache} (h : GoodCache c) {k : Key} {p : Path} (hp : c.get k = some p) : ValidPath k.inputs.length p := by
  unfold Cache.get at hp
  cases hf : c.find? (fun e => e.1 = k) with
  | none => rw [hf] at hp; cases hp
  | some e =>
    rw [hf] at hp
    have h1 := List.find?_some hf
    have h2 := h e (List.mem_of_find?_eq_some hf)
    simp only [decide_eq_true_eq] at h1
    simp only [Option.map_some, Option.some.injEq] at hp
    rw [← h1, ← hp]
    exact h2

theorem GoodOpt.addPaths {o : Opt} (h : GoodOpt o) {new : Cache} (hn : GoodCache new) : GoodOpt (o.addPaths new).1 := by
  have hc : GoodCache (new ++ o.cache) := fun e he => (List.mem_append.mp he).elim (hn e) (h.cache e)
  unfold Opt.addPaths
  split
  · exact ⟨hc, fun c hc' => by simp at hc', h.saved⟩
  · exact ⟨hc, fun c hc' => by simp at hc', h.saved⟩
  · refine ⟨hc, fun c hc' => ?_, h.saved⟩
    simp only [Option.some.injEq, File.pickle.injEq] at hc'
    exact hc' ▸ hc

theorem GoodOpt.call {o : Opt} (h : GoodOpt o) (k : Key) {fallback : Path} (hf : ValidPath k.inputs.length fallback) :
    GoodOpt (o.call k fallback).1 ∧ ∀ p, (o.call k fallback).2 = .ok p → ValidPath k.inputs.length p := by
  have hn : GoodCache [(k, fallback)] := fun e he => by rw [List.mem_singleton] at he; subst he; exact hf
  unfold Opt.call
  split
  · rename_i p hp
    exact ⟨h, fun q hq => by cases hq; exact h.cache.get hp⟩
  · have h' := h.addPaths hn
    split
    · rename_i o' e he
      rw [he] at h'
      exact ⟨h', fun q hq => by cases hq⟩
    · rename_i o' he
      rw [he] at h'
      split
      · rename_i p hp
        exact ⟨h', fun q hq => by cases hq; exact h'.cache.get hp⟩
      · exact ⟨h', fun q hq => by cases hq⟩

theorem keyOf_length (dim : E → Nat) (nodes : List (TNode E R)) : (keyOf dim nodes).inputs.length = nodes.length := by simp [keyOf]

theorem contract_right {dim : E → Nat} {nodes : List (TNode E R)} {order : List E} {fallback : Path} (hc : GoodCall nodes order fallback) {p : Path}
    (hp : ValidPath nodes.length p) : ∃ n, contractor dim nodes (fun _ => .ok p) (some order) = .ok n ∧ Right dim nodes order n :=
  C82_any_path_partial hc.graph hc.free hc.nodup hc.out rfl hp

theorem GoodOpt.contract {o : Opt} (h : GoodOpt o) {dim : E → Nat} {nodes : List (TNode E R)} {order : List E} {fallback : Path} (hc : GoodCall nodes order fallback) :
    GoodOpt (o.contract dim nodes order fallback).1 ∧ ∀ n, (o.contract dim nodes order fallback).2 = .ok n → Right dim nodes order n := by
  have hord : outputOrder nodes (some order) = .ok order := if_pos ⟨fun e he => mem_dangling.mpr ((hc.out e).mp he), fun e he => (hc.out e).mpr (mem_dangling.mp he)⟩
  have hk : nodes.filter (fun n => !n.hasTrace) = nodes := List.filter_eq_self.mpr (fun n hn => by rw [hasTrace_false.mpr (hc.free n hn)]; rfl)
  unfold Opt.contract
  rw [hord, hk]
  simp only
  split
  · rename_i h1
    obtain ⟨x, rfl⟩ := List.length_eq_one_iff.mp h1
    obtain ⟨n, e1, e2, e3⟩ := C82_single (dim := dim) x hc.graph hc.nodup (fun e => by rw [hc.out]; simp) (fun _ => .error .valueError)
    refine ⟨h, fun m hm => ?_⟩
    rw [e1] at hm
    cases hm
    exact ⟨e2, e3⟩
  · obtain ⟨g1, g2⟩ := h.call (keyOf dim nodes) (fallback := fallback) (by rw [keyOf_length]; exact hc.path)
    split
    · rename_i o' e he
      rw [he] at g1
      exact ⟨g1, fun n hn => by cases hn⟩
    · rename_i o' p he
      rw [he] at g1 g2
      have hv := g2 p rfl
      rw [keyOf_length] at hv
      obtain ⟨n, e1, e2⟩ := contract_right (dim := dim) hc hv
      refine ⟨g1, fun m hm => ?_⟩
      rw [e1] at hm
      cases hm
      exact e2

theorem GoodOpt.start {file : Option File} {saved : Option Cache} (hf : ∀ c, file = some (.pickle c) → GoodCache c) (hs : ∀ c, saved = some c → GoodCache c) {o : Opt}
    (h : Opt.start file saved = .ok o) : GoodOpt o := by
  have hnil : GoodCache [] := fun e he => by simp at he
  unfold Opt.start at h
  split at h
  · cases h; exact ⟨hnil, fun c hc => by simp at hc, hs⟩
  · cases h; exact ⟨hnil, fun c hc => by simp at hc, hs⟩
  · cases h
  · cases h; exact ⟨hnil, fun c hc => by simp at hc, hs⟩
  · cases h
  · cases h; exact ⟨hf _ rfl, fun c hc => by simp at hc; exact hc ▸ hf _ rfl, hs⟩

theorem GoodOpt.step {o : Opt} (h : GoodOpt o) (dim : E → Nat) {e : Event E R} (he : GoodEvent e) : GoodOpt (o.step dim e).1 := by
  cases e with
  | contract nodes order fallback => exact (h.contract he).1
  | addPaths new => exact h.addPaths he
  | store => exact ⟨h.cache, h.file, fun c hc => by simp [Opt.step] at hc; exact hc ▸ h.cache⟩
  | restore =>
    refine ⟨?_, h.file, h.saved⟩
    simp only [Opt.step]
    cases hs : o.saved with
    | none => exact h.cache
    | some c => exact h.saved c hs
  | restart =>
    simp only [Opt.step]
    split
    · rename_i o' ho; exact GoodOpt.start h.file h.saved ho
    · exact h
  | crash left =>
    have hf : ∀ c, o.file.map (fun _ => left) = some (.pickle c) → GoodCache c := by
      intro c hc
      cases hfile : o.file with
      | none => rw [hfile] at hc; cases hc
      | some f => rw [hfile] at hc; exact he c (by simpa using hc)
    simp only [Opt.step]
    split
    · rename_i o' ho; exact GoodOpt.start hf h.saved ho
    · exact ⟨h.cache, hf, h.saved⟩

/-- **C82 (every history is right).** Through every sequence of contractions, added paths, checkpoints, restarts and crashes at any point of writing the save file, whatever paths
`opt_einsum` finds: every contraction of a network without loops that returns a node returns the tensor of the network, with its axes in the given order. -/
theorem C82_history (dim : E → Nat) {o : Opt} (ho : GoodOpt o) (events : List (Event E R)) (he : ∀ e ∈ events, GoodEvent e) (i : Nat) {nodes : List (TNode E R)} {order : List E}
    {fallback : Path} (hi : events[i]? = some (.contract nodes order fallback)) {n : TNode E R} (hn : (o.run dim events)[i]? = some (some (.ok (some n)))) : Right dim nodes order n := by
  induction events generalizing o i with
  | nil => simp at hi
  | cons e es ih =>
    cases i with
    | zero =>
      simp only [List.getElem?_cons_zero, Option.some.injEq] at hi
      subst hi
      simp only [Opt.run, List.getElem?_cons_zero, Option.some.injEq, Opt.step] at hn
      have hgc : GoodCall nodes order fallback := he (.contract nodes order fallback) (by simp)
      refine (ho.contract hgc).2 n ?_
      cases hr : (o.contract dim nodes order fallback).2 with
      | error e => rw [hr] at hn; cases hn
      | ok m => rw [hr] at hn; cases hn; rfl
    | succ i =>
      simp only [List.getElem?_cons_succ] at hi
      simp only [Opt.run, List.getElem?_cons_succ] at hn
      exact ih (ho.step dim (he e (by simp))) (fun e' h' => he e' (by simp [h'])) i hi hn

/-- A save file that can be read and written. -/
def Usable : Option File → Prop
  | none => True
  | some .empty => True
  | some (.pickle _) => True
  | _ => False

theorem Usable.addPaths {o : Opt} (h : Usable o.file) (new : Cache) : (o.addPaths new).2 = .ok () ∧ Usable (o.addPaths new).1.file ∧ (o.addPaths new).1.cache = new ++ o.cache := by
  unfold Opt.addPaths
  split
  · exact ⟨rfl, trivial, rfl⟩
  · rename_i hf; rw [hf] at h; exact absurd h id
  · exact ⟨rfl, trivial, rfl⟩

theorem Usable.call {o : Opt} (h : Usable o.file) (k : Key) (fallback : Path) : (∃ p, (o.call k fallback).2 = .ok p) ∧ Usable (o.call k fallback).1.file := by
  unfold Opt.call
  split
  · exact ⟨⟨_, rfl⟩, h⟩
  · obtain ⟨h1, h2, h3⟩ := h.addPaths [(k, fallback)]
    split
    · rename_i o' e he; rw [he] at h1; cases h1
    · rename_i o' he
      rw [he] at h2 h3
      have hg : o'.cache.get k = some fallback := by rw [h3]; simp [Cache.get]
      rw [hg]
      exact ⟨⟨_, rfl⟩, h2⟩

theorem Usable.contract {o : Opt} (ho : GoodOpt o) (h : Usable o.file) {dim : E → Nat} {nodes : List (TNode E R)} {order : List E} {fallback : Path} (hc : GoodCall nodes order fallback) :
    (∃ n, (o.contract dim nodes order fallback).2 = .ok n) ∧ Usable (o.contract dim nodes order fallback).1.file := by
  have hord : outputOrder nodes (some order) = .ok order := if_pos ⟨fun e he => mem_dangling.mpr ((hc.out e).mp he), fun e he => (hc.out e).mpr (mem_dangling.mp he)⟩
  have hk : nodes.filter (fun n => !n.hasTrace) = nodes := List.filter_eq_self.mpr (fun n hn => by rw [hasTrace_false.mpr (hc.free n hn)]; rfl)
  unfold Opt.contract
  rw [hord, hk]
  simp only
  split
  · rename_i h1
    obtain ⟨x, rfl⟩ := List.length_eq_one_iff.mp h1
    obtain ⟨n, e1, _⟩ := C82_single (dim := dim) x hc.graph hc.nodup (fun e => by rw [hc.out]; simp) (fun _ => .error .valueError)
    exact ⟨⟨n, by rw [e1]; rfl⟩, h⟩
  · obtain ⟨g1, g2⟩ := ho.call (keyOf dim nodes) (fallback := fallback) (by rw [keyOf_length]; exact hc.path)
    obtain ⟨⟨p, hp⟩, g3⟩ := h.call (keyOf dim nodes) fallback
    split
    · rename_i o' e he; rw [he] at hp; cases hp
    · rename_i o' q he
      rw [he] at g2 g3
      have hv := g2 q rfl
      rw [keyOf_length] at hv
      obtain ⟨n, e1, _⟩ := contract_right (dim := dim) hc hv
      exact ⟨⟨n, by rw [e1]; rfl⟩, g3⟩

/-- **C82 (no failures).** Without a save file, or with one that exists and is not left damaged by a crash, every contraction in every history returns a node. -/
theorem C82_no_failure_partial (dim : E → Nat) {o : Opt} (ho : GoodOpt o) (hu : Usable o.file) (events : List (Event E R)) (he : ∀ e ∈ events, GoodEvent e)
    (hcr : ∀ left, Event.crash left ∈ events → Usable (some left)) (i : Nat) {nodes : List (TNode E R)} {order : List E} {fallback : Path}
    (hi : events[i]? = some (.contract nodes order fallback)) : ∃ n, (o.run dim events)[i]? = some (some (.ok (some n))) ∧ Right dim nodes order n := by
  suffices h : ∃ n, (o.run dim events)[i]? = some (some (.ok (some n))) by
    obtain ⟨n, hn⟩ := h
    exact ⟨n, hn, C82_history dim ho events he i hi hn⟩
  induction events generalizing o i with
  | nil => simp at hi
  | cons e es ih =>
    cases i with
    | zero =>
      simp only [List.getElem?_cons_zero, Option.some.injEq] at hi
      subst hi
      have hgc : GoodCall nodes order fallback := he (.contract nodes order fallback) (by simp)
      obtain ⟨⟨n, hn⟩, _⟩ := Usable.contract ho hu (dim := dim) hgc
      exact ⟨n, by simp only [Opt.run, List.getElem?_cons_zero, Opt.step, hn]; rfl⟩
    | succ i =>
      simp only [List.getElem?_cons_succ] at hi
      simp only [Opt.run, List.getElem?_cons_succ]
      have hge := he e (by simp)
      refine ih (ho.step dim hge) ?_ (fun e' h' => he e' (by simp [h'])) (fun l hl => hcr l (by simp [hl])) i hi
      cases e with
      | contract nodes' order' fb => exact (Usable.contract ho hu hge).2
      | addPaths new => exact (hu.addPaths new).2.1
      | store => exact hu
      | restore => exact hu
      | restart =>
        simp only [Opt.step]
        split
        · rename_i o' hs
          unfold Opt.start at hs
          split at hs <;> first | (cases hs; first | trivial | (rename_i hf; rw [hf] at hu; exact absurd hu id)) | cases hs
        · exact hu
      | crash left =>
        have hl := hcr left (by simp)
        have hfile : Usable (o.file.map (fun _ => left)) := by cases o.file with | none => trivial | some f => exact hl
        simp only [Opt.step]
        generalize o.file.map (fun _ => left) = file at hfile
        split
        · rename_i o' hs
          unfold Opt.start at hs
          split at hs <;> first | (cases hs; first | trivial | exact absurd hfile id) | cases hs
        · exact hfile

/-- **C82 (paths survive a restart).** With a usable save file, after paths have been added, or found during a contraction, a new process starts with the same paths. -/
theorem C82_persist {o : Opt} (hu : Usable o.file) (hf : o.file ≠ none) (new : Cache) :
    ∃ o', Opt.start (o.addPaths new).1.file (o.addPaths new).1.saved = .ok o' ∧ o'.cache = new ++ o.cache := by
  unfold Opt.addPaths
  split
  · rename_i h; exact absurd h hf
  · rename_i h; rw [h] at hu; exact absurd hu id
  · exact ⟨_, rfl, rfl⟩

/-- **C82 (refuted: a new save file).** With a save file that does not exist yet, the constructor makes a directory of this name; the first contraction of two or more
nodes then raises, and the next process cannot even be started. -/
theorem C82_refuted_new_file (saved : Option Cache) (dim : E → Nat) {nodes : List (TNode E R)} {order : List E} {fallback : Path} (hc : GoodCall nodes order fallback) (hn : nodes.length ≠ 1) :
    ∃ o, Opt.start (some .missing) saved = .ok o ∧ (o.contract dim nodes order fallback).2 = .error .isADirectory ∧
      Opt.start (o.contract dim nodes order fallback).1.file saved = .error .isADirectory := by
  refine ⟨_, rfl, ?_⟩
  have hord : outputOrder nodes (some order) = .ok order := if_pos ⟨fun e he => mem_dangling.mpr ((hc.out e).mp he), fun e he => (hc.out e).mpr (mem_dangling.mp he)⟩
  unfold Opt.contract
  rw [hord]
  simp only [if_neg hn]
  exact ⟨rfl, rfl⟩

/-- **C82 (refuted: crash while saving).** The file is emptied before it is written: a crash at this point loses all paths that were saved before; a crash in the middle leaves a file
with which no optimizer can be started. -/
theorem C82_refuted_crash (c : Cache) (dim : E → Nat) : 
    ((Opt.step dim ⟨c, some (.pickle c), none⟩ (.crash .empty : Event E R)).1.cache = []) ∧
    (Opt.step dim ⟨c, some (.pickle c), none⟩ (.crash .torn : Event E R)).2 = some (.error .unpickling) := ⟨rfl, rfl⟩

/-! ## Keys -/

theorem dedupFirst_spec (seen l : List E) : (dedupFirst seen l).Nodup ∧ ∀ e, e ∈ dedupFirst seen l ↔ e ∈ l ∧ e ∉ seen := by
  induction l generalizing seen with
  | nil => simp [dedupFirst]
  | cons x l ih =>
    unfold dedupFirst
    split
    · rename_i hx
      refine ⟨(ih seen).1, fun e => ?_⟩
      rw [(ih seen).2, List.mem_cons]
      constructor
      · rintro ⟨h1, h2⟩; exact ⟨Or.inr h1, h2⟩
      · rintro ⟨rfl | h1, h2⟩
        · exact absurd hx h2
        · exact ⟨h1, h2⟩
    · rename_i hx
      obtain ⟨i1, i2⟩ := ih (x :: seen)
      refine ⟨List.nodup_cons.mpr ⟨fun h => by have := (i2 x).mp h; simp at this, i1⟩, fun e => ?_⟩
      rw [List.mem_cons, i2, List.mem_cons, List.mem_cons]
      by_cases h : e = x
      · subst h; simp [hx]
      · simp [h]

theorem edgeList_spec (nodes : List (TNode E R)) : (edgeList nodes).Nodup ∧ ∀ e, e ∈ edgeList nodes ↔ ∃ n ∈ nodes, e ∈ n.edges := by
  obtain ⟨h1, h2⟩ := dedupFirst_spec [] (nodes.flatMap (·.edges))
  exact ⟨h1, fun e => by rw [edgeList, h2]; simp⟩

theorem mem_positions {el s : List E} {i : Nat} (hi : i < el.length) : i ∈ positions el s ↔ el[i] ∈ s := by
  simp [positions, hi, List.getElem?_eq_getElem hi]

/-- **C82 (the key determines the problem).** Networks with the same key have the same number of nodes and, edge by edge in the order of the lists of edges, the same sizes, the same
nodes at the ends and the same open edges: they are the same contraction problem up to the names of the edges. So a cached path is a path for the network it is used for. -/
theorem C82_key_sound {E' R' : Type} [DecidableEq E'] [CommSemiring R'] (dim : E → Nat) (dim' : E' → Nat) (a : List (TNode E R)) (b : List (TNode E' R')) (h : keyOf dim a = keyOf dim' b) :
    a.length = b.length ∧ (edgeList a).length = (edgeList b).length ∧
    ∀ (i : Nat) (ha : i < (edgeList a).length) (hb : i < (edgeList b).length),
      dim (edgeList a)[i] = dim' (edgeList b)[i] ∧ ((edgeList a)[i] ∈ dangling a ↔ (edgeList b)[i] ∈ dangling b) ∧
      ∀ (j : Nat) (ja : j < a.length) (jb : j < b.length), (edgeList a)[i] ∈ a[j].edges ↔ (edgeList b)[i] ∈ b[j].edges := by
  simp only [keyOf, Key.mk.injEq] at h
  obtain ⟨h1, h2, h3⟩ := h
  have hl : a.length = b.length := by simpa using congrArg List.length h1
  refine ⟨hl, by simpa using congrArg List.length h3, fun i ha hb => ⟨?_, ?_, fun j ja jb => ?_⟩⟩
  · have := congrArg (fun l => l[i]?) h3
    simp only [List.getElem?_map, List.getElem?_zipIdx, List.getElem?_eq_getElem ha, List.getElem?_eq_getElem hb, Option.map_some, Option.some.injEq, Prod.mk.injEq] at this
    exact this.2
  · rw [← mem_positions ha, ← mem_positions hb, h2]
  · have := congrArg (fun l => l[j]?) h1
    simp only [List.getElem?_map, List.getElem?_eq_getElem ja, List.getElem?_eq_getElem jb, Option.map_some, Option.some.injEq] at this
    rw [← mem_positions ha, ← mem_positions hb, this]

/-- Rename the edges of a node and change its tensor. -/
def TNode.rename {E' : Type} (f : E → E') (t : List Nat → R) (n : TNode E R) : TNode E' R := ⟨n.edges.map f, t⟩

theorem dedupFirst_map {E' : Type} [DecidableEq E'] {f : E → E'} (hf : Function.Injective f) (seen l : List E) : dedupFirst (seen.map f) (l.map f) = (dedupFirst seen l).map f := by
  induction l generalizing seen with
  | nil => rfl
  | cons x l ih =>
    simp only [List.map_cons, dedupFirst]
    have : f x ∈ seen.map f ↔ x ∈ seen := by simp [hf.eq_iff]
    by_cases h : x ∈ seen
    · rw [if_pos h, if_pos (this.mpr h)]; exact ih seen
    · rw [if_neg h, if_neg (fun h' => h (this.mp h')), List.map_cons]
      have := ih (x :: seen)
      simp only [List.map_cons] at this
      rw [this]

/-- **C82 (paths are reused).** Networks that differ only in the names of their edges and in the entries of their tensors have the same key, so the second one is contracted without
calling `opt_einsum` again. -/
theorem C82_key_reused {E' : Type} [DecidableEq E'] (dim : E → Nat) (dim' : E' → Nat) (f : E → E') (hf : Function.Injective f) (hd : ∀ e, dim' (f e) = dim e) (t : TNode E R → List Nat → R)
    (nodes : List (TNode E R)) : keyOf dim' (nodes.map (fun n => n.rename f (t n))) = keyOf dim nodes := by
  have hfl : (nodes.map (fun n => n.rename f (t n))).flatMap (·.edges) = (nodes.flatMap (·.edges)).map f := by
    rw [List.map_flatMap, List.flatMap_map]; rfl
  have hel : edgeList (nodes.map (fun n => n.rename f (t n))) = (edgeList nodes).map f := by
    unfold edgeList
    rw [hfl]
    exact dedupFirst_map hf [] _
  have hda : dangling (nodes.map (fun n => n.rename f (t n))) = (dangling nodes).map f := by
    unfold dangling
    rw [hfl, List.filter_map]
    congr 1
    apply List.filter_congr
    intro e _
    simp only [Function.comp_apply, List.count_map_of_injective _ _ hf]
  have hpos : ∀ el s : List E, positions (el.map f) (s.map f) = positions el s := by
    intro el s
    unfold positions
    rw [List.length_map]
    apply List.filter_congr
    intro i hi
    rw [List.mem_range] at hi
    simp [List.getElem?_eq_getElem hi, hf.eq_iff]
  simp only [keyOf, hel, hda, hpos, Key.mk.injEq, List.map_map, true_and]
  refine ⟨?_, ?_⟩
  · apply List.map_congr_left
    intro n _
    exact hpos _ _
  · rw [List.zipIdx_map, List.map_map]
    apply List.map_congr_left
    rintro ⟨e, i⟩ _
    simp [hd]

/-- The hypotheses are met: a new optimizer, and a matrix applied to a vector. -/
example : GoodOpt ⟨[], none, none⟩ ∧ ∃ nodes : List (TNode Nat Nat), GoodCall nodes [0] [[0, 1]] := by
  refine ⟨⟨fun e he => by simp at he, fun c hc => by simp at hc, fun c hc => by simp at hc⟩, [⟨[0, 1], fun i => i.sum⟩, ⟨[1], fun i => i.sum⟩], ?_, ?_, by decide, ?_, .step (by decide) (by decide) (by decide) .done⟩
  · intro e
    simp only [List.flatMap_cons, List.flatMap_nil, List.append_nil, List.cons_append, List.nil_append, List.count_cons, List.count_nil, beq_iff_eq]
    split_ifs <;> omega
  · intro n hn
    simp only [List.mem_cons, List.not_mem_nil, or_false] at hn
    rcases hn with rfl | rfl <;> decide
  · intro e
    simp only [List.flatMap_cons, List.flatMap_nil, List.append_nil, List.cons_append, List.nil_append, List.count_cons, List.count_nil, beq_iff_eq, List.mem_singleton]
    split_ifs <;> omega

end Lambeq.PathOpt
