import Verif.Grammar.ConstructProps

/-!
# Functors

Models `lambeq/backend/grammar.py`: `Functor` (1976-2105) and the `apply_functor` methods of `Ty`
(347-356), `Box` (527-531), `Diagram` (1319-1327), `Cap` (1501-1506), `Cup` (1630-1635), `Daggered`
(1691-1692), `Spider` (1790-1795), `Swap` (1884-1888).

Simplifications. The target category is the grammar category. The user functions `ob`, `ar` are pure:
`ob` is called on an atomic type of winding number 0, i.e. on a name; `ar` is called on a plain box or
word of winding number 0 and may raise. Results of the functor on a box are represented as diagrams
(`to_diagram` applied). Frames are not covered here.
-/

namespace Lambeq
open Diagram

structure Functor where
  ob : String → Ty
  ar : Box → Except PyErr GDiagram

namespace Functor
variable (F : Functor)

/-- grammar.py:353-356 for an atomic type. -/
def obAtom (o : Ob) : Ty := if o.z ≠ 0 then Ty.rotate o.z (F.ob o.name) else F.ob o.name

/-- grammar.py:2048-2064 with 347-352: the functor on types. -/
def onTy (t : Ty) : Ty := (t.map F.obAtom).flatten

/-- grammar.py:2083-2090: the type check at the end of `ar_with_cache`. -/
def check (dom cod : Ty) (d : GDiagram) : Except PyErr GDiagram :=
  if d.cod ≠ F.onTy cod ∨ d.dom ≠ F.onTy dom then .error .typeError else .ok d

/-- A functor call on a plain box or word of winding number 0. -/
def onBox0 (b : Box) : Except PyErr GDiagram := do
  let d ← F.ar b
  F.check b.dom b.cod d

/-- `functor(box)` (`to_diagram` applied), ignoring the cache: `Box.apply_functor` 527-531 for plain
boxes and words, and the overrides of the other classes, each followed by the check. -/
def onBox : Box → Except PyErr GDiagram
  | .gen n d c z => do
      let r ← (if z ≠ 0 then do
          let r0 ← F.onBox0 (.gen n (Ty.rotate (-z) d) (Ty.rotate (-z) c) (z + -z))
          GDiagram.rotatePy z r0
        else F.ar (.gen n d c z))
      F.check d c r
  | .word n c z => do
      let r ← (if z ≠ 0 then do
          let r0 ← F.onBox0 (.word n (Ty.rotate (-z) c) (z + -z))
          GDiagram.rotatePy z r0
        else F.ar (.word n c z))
      F.check [] c r
  | .cup l r rev => do
      let d ← GDiagram.mkCup (F.onTy [l]) (F.onTy [r]) rev
      F.check [l, r] [] d
  | .cap l r rev => do
      let d ← GDiagram.mkCap (F.onTy [l]) (F.onTy [r]) rev
      F.check [] [l, r] d
  | .swap l r => do
      let d ← GDiagram.mkSwap (F.onTy [l]) (F.onTy [r])
      F.check [l, r] [r, l] d
  | .spider t n m => do
      let d ← GDiagram.mkSpider (F.onTy [t]) n m
      F.check (List.replicate n t) (List.replicate m t) d
  | .daggered b => do
      let r ← onBox b
      let d ← GDiagram.daggerPy r
      F.check b.cod b.dom d

/-- One step of the loop of `Diagram.apply_functor`, grammar.py:1322-1326. -/
def layerStep (acc : GDiagram) (l : GLayer) : Except PyErr GDiagram := do
  let b ← F.onBox l.box
  andThen acc (tensor (tensor (Diagram.id (F.onTy l.left)) b) (Diagram.id (F.onTy l.right)))

/-- `functor(diagram)`, ignoring the cache: grammar.py:2076-2090 with 1319-1327. -/
def onDiagram (d : GDiagram) : Except PyErr GDiagram := do
  let r ← (if d.layers.isEmpty then .ok (Diagram.id (F.onTy d.dom))
    else d.layers.foldlM F.layerStep (Diagram.id (F.onTy d.dom)))
  F.check d.dom d.cod r

/-! ## The cache -/

/-- Keys of `ar_cache`: a box or a diagram. -/
inductive Key
  | box (b : Box)
  | diag (d : GDiagram)
  deriving DecidableEq

/-- `ar_cache`, newest entry first. -/
abbrev Cache := List (Key × GDiagram)

/-- `dict.__getitem__` -/
def Cache.get (c : Cache) (k : Key) : Option GDiagram :=
  match c with
  | [] => none
  | (k', v) :: rest => if k' = k then some v else Cache.get rest k

/-- `ar_with_cache` (grammar.py:2066-2090) around a computation of `ret`: look the key up; otherwise
compute, store, and only then check the type. -/
def withCache (k : Key) (dom cod : Ty)
    (body : Cache → Except PyErr GDiagram × Cache) (c : Cache) : Except PyErr GDiagram × Cache :=
  match c.get k with
  | some v => (.ok v, c)
  | none =>
    match body c with
    | (.error e, c') => (.error e, c')
    | (.ok ret, c') => (F.check dom cod ret, (k, ret) :: c')

/-- A cached functor call on a plain box or word of winding number 0. -/
def callBox0 (b : Box) (c : Cache) : Except PyErr GDiagram × Cache :=
  F.withCache (.box b) b.dom b.cod (fun c => (F.ar b, c)) c

/-- Sequencing of a cached call with a pure continuation. -/
def andPure (r : Except PyErr GDiagram × Cache) (f : GDiagram → Except PyErr GDiagram) :
    Except PyErr GDiagram × Cache :=
  match r with
  | (.ok d, c) => (f d, c)
  | (.error e, c) => (.error e, c)

/-- `functor(box)` with the cache. -/
def callBox : Box → Cache → Except PyErr GDiagram × Cache
  | .gen n d cd z, c => F.withCache (.box (.gen n d cd z)) d cd (fun c =>
      if z ≠ 0 then andPure (F.callBox0 (.gen n (Ty.rotate (-z) d) (Ty.rotate (-z) cd) (z + -z)) c)
        (GDiagram.rotatePy z)
      else (F.ar (.gen n d cd z), c)) c
  | .word n cd z, c => F.withCache (.box (.word n cd z)) [] cd (fun c =>
      if z ≠ 0 then andPure (F.callBox0 (.word n (Ty.rotate (-z) cd) (z + -z)) c) (GDiagram.rotatePy z)
      else (F.ar (.word n cd z), c)) c
  | .cup l r rev, c => F.withCache (.box (.cup l r rev)) [l, r] [] (fun c =>
      (GDiagram.mkCup (F.onTy [l]) (F.onTy [r]) rev, c)) c
  | .cap l r rev, c => F.withCache (.box (.cap l r rev)) [] [l, r] (fun c =>
      (GDiagram.mkCap (F.onTy [l]) (F.onTy [r]) rev, c)) c
  | .swap l r, c => F.withCache (.box (.swap l r)) [l, r] [r, l] (fun c =>
      (GDiagram.mkSwap (F.onTy [l]) (F.onTy [r]), c)) c
  | .spider t n m, c => F.withCache (.box (.spider t n m)) (List.replicate n t) (List.replicate m t)
      (fun c => (GDiagram.mkSpider (F.onTy [t]) n m, c)) c
  | .daggered b, c => F.withCache (.box (.daggered b)) b.cod b.dom (fun c =>
      andPure (callBox b c) GDiagram.daggerPy) c

/-- `functor(self.id(t))` with the cache (grammar.py:2079). -/
def callId (t : Ty) (c : Cache) : Except PyErr GDiagram × Cache :=
  F.withCache (.diag (Diagram.id t)) t t (fun c => (.ok (Diagram.id (F.onTy t)), c)) c

/-- The loop of `Diagram.apply_functor` (grammar.py:1322-1327) with the cache: the three functor calls
of a layer happen left, box, right. -/
def callLayers : List GLayer → GDiagram → Cache → Except PyErr GDiagram × Cache
  | [], acc, c => (.ok acc, c)
  | l :: ls, acc, c =>
    match F.callId l.left c with
    | (.error e, c) => (.error e, c)
    | (.ok dl, c) =>
      match F.callBox l.box c with
      | (.error e, c) => (.error e, c)
      | (.ok db, c) =>
        match F.callId l.right c with
        | (.error e, c) => (.error e, c)
        | (.ok dr, c) =>
          match andThen acc (tensor (tensor dl db) dr) with
          | .error e => (.error e, c)
          | .ok acc' => callLayers ls acc' c

/-- `functor(diagram)` with the cache. -/
def callDiagram (d : GDiagram) (c : Cache) : Except PyErr GDiagram × Cache :=
  F.withCache (.diag d) d.dom d.cod (fun c =>
    if d.layers.isEmpty then (.ok (Diagram.id (F.onTy d.dom)), c)
    else match F.callId d.dom c with
      | (.error e, c) => (.error e, c)
      | (.ok acc, c) => F.callLayers d.layers acc c) c

/-- A user's call. -/
def call : Key → Cache → Except PyErr GDiagram × Cache
  | .box b => F.callBox b
  | .diag d => F.callDiagram d

/-- What a fresh functor answers. -/
def fresh : Key → Except PyErr GDiagram
  | .box b => F.onBox b
  | .diag d => F.onDiagram d

/-- The answers of one functor object to a whole history of calls. -/
def history : List Key → Cache → List (Except PyErr GDiagram)
  | [], _ => []
  | k :: ks, c => (F.call k c).1 :: history ks (F.call k c).2

end Functor
end Lambeq
