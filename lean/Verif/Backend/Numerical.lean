import Verif.Py
import Mathlib.Tactic.Set

/-!
# The stack of numerical backends (C45)

Models `lambeq/backend/numerical_backend.py` 86-139: the context manager `backend`, `set_backend` and `get_backend`, with the list and the
dictionary that are default arguments of `backend`, shared by all callers in the process.

Simplifications. A backend object is its name. Constructing one (`BACKENDS[name]()`: a `KeyError` for an unknown name, an import error if
the library is missing) is a parameter `load`, which is deterministic.
-/

namespace Lambeq
namespace Backend
set_option linter.unusedSimpArgs false
set_option linter.unusedVariables false

/-- The default arguments `_stack` (reversed: the last element first) and `_cache`. -/
structure St where
  stack : List String
  cache : List String
  deriving DecidableEq, Repr

/-- numerical_backend.py:106: `name or _stack[-1]`; `none` and the empty string are falsy. -/
def resolve (name : Option String) (top : String) : String :=
  match name with
  | none => top
  | some n => if n = "" then top else n

/-- numerical_backend.py:106-111: entering. When the constructor raises, the `finally` clause pops the name again. -/
def enter (load : String → Except PyErr Unit) (s : St) (name : Option String) : St × Except PyErr String :=
  match s.stack with
  | [] => (s, .error .indexError)
  | top :: rest =>
    let n := resolve name top
    if s.cache.contains n then (⟨n :: s.stack, s.cache⟩, .ok n)
    else
      match load n with
      | .error e => (s, .error e)
      | .ok _ => (⟨n :: s.stack, n :: s.cache⟩, .ok n)

/-- numerical_backend.py:112-113: leaving, normally or by an exception. -/
def leave (s : St) : St := ⟨s.stack.tail, s.cache⟩

/-- numerical_backend.py:116-124 -/
def setBackend (s : St) (name : String) : St := ⟨s.stack.set 0 name, s.cache⟩

/-- numerical_backend.py:127-139 -/
def getBackend (load : String → Except PyErr Unit) (s : St) : St × Except PyErr String :=
  match enter load s none with
  | (s1, .ok b) => (leave s1, .ok b)
  | (s1, .error e) => (s1, .error e)

/-- Programs that use the module. `withB name body` is `with backend(name) as b: body` and shows `b`; `get` shows the result of
`get_backend()`; `attempt p h` is `try: p  except: h`. -/
inductive Prog
  | skip
  | seq (p q : Prog)
  | withB (name : Option String) (body : Prog)
  | set (name : String)
  | get
  | fail (e : PyErr)
  | attempt (p h : Prog)

/-- Running a program with the module: the state afterwards, what was shown, and the exception if any. -/
def run (load : String → Except PyErr Unit) : Prog → St → St × List String × Option PyErr
  | .skip, s => (s, [], none)
  | .seq p q, s =>
    match run load p s with
    | (s1, o1, some e) => (s1, o1, some e)
    | (s1, o1, none) =>
      match run load q s1 with
      | (s2, o2, e) => (s2, o1 ++ o2, e)
  | .withB n body, s =>
    match enter load s n with
    | (s1, .error e) => (s1, [], some e)
    | (s1, .ok b) =>
      match run load body s1 with
      | (s2, o, e) => (leave s2, b :: o, e)
  | .set n, s => (setBackend s n, [], none)
  | .get, s =>
    match getBackend load s with
    | (s1, .ok b) => (s1, [b], none)
    | (s1, .error e) => (s1, [], some e)
  | .fail e, s => (s, [], some e)
  | .attempt p h, s =>
    match run load p s with
    | (s1, o1, none) => (s1, o1, none)
    | (s1, o1, some _) =>
      match run load h s1 with
      | (s2, o2, e) => (s2, o1 ++ o2, e)

/-! ## Specification: dynamic scope, without a stack or a cache -/

/-- Running a program when the current backend is `cur`: the backend that is current afterwards, what was shown, and the exception. A
`with` makes its name current in its body only. -/
def inScope (load : String → Except PyErr Unit) : Prog → String → String × List String × Option PyErr
  | .skip, cur => (cur, [], none)
  | .seq p q, cur =>
    match inScope load p cur with
    | (c1, o1, some e) => (c1, o1, some e)
    | (c1, o1, none) =>
      match inScope load q c1 with
      | (c2, o2, e) => (c2, o1 ++ o2, e)
  | .withB n body, cur =>
    let b := if n = none ∨ n = some "" then cur else n.getD cur
    match load b with
    | .error e => (cur, [], some e)
    | .ok _ =>
      match inScope load body b with
      | (_, o, e) => (cur, b :: o, e)
  | .set n, _ => (n, [], none)
  | .get, cur =>
    match load cur with
    | .ok _ => (cur, [cur], none)
    | .error e => (cur, [], some e)
  | .fail e, cur => (cur, [], some e)
  | .attempt p h, cur =>
    match inScope load p cur with
    | (c1, o1, none) => (c1, o1, none)
    | (c1, o1, some _) =>
      match inScope load h c1 with
      | (c2, o2, e) => (c2, o1 ++ o2, e)

/-- The cache holds only backends that can be loaded. -/
def CacheOk (load : String → Except PyErr Unit) (s : St) : Prop := ∀ n ∈ s.cache, load n = .ok ()

theorem enter_spec (load : String → Except PyErr Unit) (top : String) (rest cache : List String) (hc : CacheOk load ⟨top :: rest, cache⟩)
    (n : Option String) :
    let b := if n = none ∨ n = some "" then top else n.getD top
    (∀ e, load b = .error e → enter load ⟨top :: rest, cache⟩ n = (⟨top :: rest, cache⟩, .error e)) ∧
    (load b = .ok () → ∃ cache', enter load ⟨top :: rest, cache⟩ n = (⟨b :: top :: rest, cache'⟩, .ok b) ∧ CacheOk load ⟨b :: top :: rest, cache'⟩) := by
  have hb : resolve n top = (if n = none ∨ n = some "" then top else n.getD top) := by
    cases n with
    | none => simp [resolve]
    | some m => by_cases h : m = "" <;> simp [resolve, h]
  simp only [← hb]
  unfold enter
  simp only
  constructor
  · intro e he
    have hnc : cache.contains (resolve n top) = false := by
      cases hcc : cache.contains (resolve n top) with
      | false => rfl
      | true =>
        have := hc _ (List.contains_iff_mem.1 hcc)
        rw [this] at he; cases he
    simp only [hnc, he]
    rfl
  · intro hl
    cases hcc : cache.contains (resolve n top) with
    | true => exact ⟨cache, by simp, hc⟩
    | false =>
      refine ⟨resolve n top :: cache, by simp [hl], ?_⟩
      intro m hm
      rcases List.mem_cons.1 hm with rfl | hm
      · exact hl
      · exact hc m hm

/-- **C45.** Every program over `backend(...)`, `set_backend`, `get_backend`, exceptions and handlers behaves as in the specification with
dynamic scope: what it shows, the exception it ends with, and the backend that is current afterwards are the same; and below the current
entry the stack is as before, at every depth of nesting. -/
theorem C45_scoped (load : String → Except PyErr Unit) (p : Prog) (top : String) (rest cache : List String)
    (hc : CacheOk load ⟨top :: rest, cache⟩) :
    ∃ cache', run load p ⟨top :: rest, cache⟩ = (⟨(inScope load p top).1 :: rest, cache'⟩, (inScope load p top).2.1, (inScope load p top).2.2) ∧
      CacheOk load ⟨(inScope load p top).1 :: rest, cache'⟩ := by
  induction p generalizing top rest cache with
  | skip => exact ⟨cache, rfl, hc⟩
  | seq p q ihp ihq =>
    obtain ⟨c1, h1, hc1⟩ := ihp top rest cache hc
    simp only [run, inScope, h1]
    rcases hs : inScope load p top with ⟨a, o, e⟩
    rw [hs] at hc1
    cases e with
    | some e => exact ⟨c1, rfl, hc1⟩
    | none =>
      obtain ⟨c2, h2, hc2⟩ := ihq a rest c1 hc1
      simp only [h2]
      exact ⟨c2, rfl, hc2⟩
  | withB n body ih =>
    obtain ⟨e1, e2⟩ := enter_spec load top rest cache hc n
    simp only [run, inScope]
    set b := (if n = none ∨ n = some "" then top else n.getD top) with hb
    cases hl : load b with
    | error e =>
      rw [e1 e hl]
      exact ⟨cache, rfl, hc⟩
    | ok u =>
      obtain ⟨c1, h1, hc1⟩ := e2 hl
      rw [h1]
      obtain ⟨c2, h2, hc2⟩ := ih b (top :: rest) c1 hc1
      simp only [h2]
      exact ⟨c2, rfl, hc2⟩
  | set n => exact ⟨cache, rfl, hc⟩
  | get =>
    obtain ⟨e1, e2⟩ := enter_spec load top rest cache hc none
    simp only [true_or, if_true] at e1 e2
    simp only [run, inScope, getBackend]
    cases hl : load top with
    | error e =>
      rw [e1 e hl]
      exact ⟨cache, rfl, hc⟩
    | ok u =>
      obtain ⟨c1, h1, hc1⟩ := e2 hl
      rw [h1]
      exact ⟨c1, rfl, hc1⟩
  | fail e => exact ⟨cache, rfl, hc⟩
  | attempt p h ihp ihh =>
    obtain ⟨c1, h1, hc1⟩ := ihp top rest cache hc
    simp only [run, inScope, h1]
    rcases hs : inScope load p top with ⟨a, o, e⟩
    rw [hs] at hc1
    cases e with
    | none => exact ⟨c1, rfl, hc1⟩
    | some e =>
      obtain ⟨c2, h2, hc2⟩ := ihh a rest c1 hc1
      simp only [h2]
      exact ⟨c2, rfl, hc2⟩

/-- **C45 (restored).** Leaving a `with backend(...)` block restores the stack exactly, whatever its body does (nested blocks,
`set_backend`, exceptions) and also when entering it fails. -/
theorem C45_restored (load : String → Except PyErr Unit) (n : Option String) (body : Prog) (top : String) (rest cache : List String)
    (hc : CacheOk load ⟨top :: rest, cache⟩) : (run load (.withB n body) ⟨top :: rest, cache⟩).1.stack = top :: rest := by
  obtain ⟨c, h, _⟩ := C45_scoped load (.withB n body) top rest cache hc
  rw [h]
  simp only [inScope]
  generalize (if n = none ∨ n = some "" then top else n.getD top) = b
  cases load b <;> rfl

/-- Two levels, `set_backend` in the inner one, an exception through both, and a handler: what `get_backend()` shows. -/
example : run (fun n => if n ∈ ["numpy", "jax", "pytorch"] then .ok () else .error .keyError)
    (.seq .get (.seq (.attempt (.withB (some "jax") (.seq .get (.withB none (.seq (.set "pytorch") (.seq .get (.fail .valueError)))))) .get) .get))
    ⟨["numpy"], []⟩ = (⟨["numpy"], ["pytorch", "jax", "numpy"]⟩, ["numpy", "jax", "jax", "jax", "pytorch", "numpy", "numpy"], none) := by decide

/-- An unknown name: `KeyError`, and the previous backend is still current. -/
example : run (fun n => if n ∈ ["numpy"] then .ok () else .error .keyError) (.seq (.attempt (.withB (some "nope") .get) .skip) .get) ⟨["numpy"], []⟩
    = (⟨["numpy"], ["numpy"]⟩, ["numpy"], none) := by decide

/-! ## Uses that are not nested -/

/-- One call by some thread, or by a user of `ExitStack` or of generators. -/
inductive Op
  | enter (name : String)
  | leave
  | get

/-- The calls in the order in which they happen in the process: what `get_backend()` shows. -/
def ops (load : String → Except PyErr Unit) : List Op → St → List String
  | [], _ => []
  | .enter n :: l, s => ops load l (enter load s (some n)).1
  | .leave :: l, s => ops load l (leave s)
  | .get :: l, s =>
    match getBackend load s with
    | (s1, .ok b) => b :: ops load l s1
    | (s1, .error _) => ops load l s1

/-- **C45, refuted for schedules that are not nested.** Thread 1 enters `jax`, thread 2 enters `pytorch`: thread 1 now sees `pytorch`.
When thread 1 leaves, the entry of thread 2 is removed: thread 2, inside its block, sees `jax`. -/
theorem C45_refuted_threads :
    ops (fun _ => .ok ()) [.enter "jax", .enter "pytorch", .get, .leave, .get, .leave] ⟨["numpy"], []⟩ = ["pytorch", "jax"] := by decide

end Backend
end Lambeq
