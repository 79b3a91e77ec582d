import Verif.Tensor.Category
import Verif.Grammar.PermSemantics
import Mathlib.Analysis.SpecialFunctions.Pow.Real
import Mathlib.Analysis.SpecialFunctions.Trigonometric.Basic

/-!
# The quantum category: types and boxes

Models `lambeq/backend/quantum.py`: `Ty` (50-103), `Box` (106-165), `SelfConjugate` and `AntiConjugate` (591-605), `Swap` (703-738), `Ket`, `Bra`
(747-809), `Rotation` and its subclasses (858-919), `Controlled` (922-1022), `MixedState`, `Discard`, `Measure`, `Encode` (1025-1063), `Scalar`,
`Sqrt` (1066-1115), `Daggered` (1118-1154), `Bit` (1157-1179), the constant gates (1182-1199). Numbers are exact: floating point is modelled by
the complex numbers, and phases are real numbers (symbolic phases are substituted before evaluation, see C69).
-/

namespace Lambeq
open Diagram
set_option linter.unusedSectionVars false
set_option linter.unusedSimpArgs false
noncomputable section

/-- quantum.py:102-103: the two atomic types, both of dimension two. -/
inductive QOb
  | qubit | bit
  deriving DecidableEq

/-- The dimensions of a type: `Ty.dim`, quantum.py:76 with tensor.py:88-91. -/
def qDims (t : List QOb) : List Nat := t.map (fun _ => 2)

/-- The axes of the rotation gates. -/
inductive Axis
  | x | y | z
  deriving DecidableEq

/-- The boxes of the quantum category. -/
inductive QBox
  /-- `Box(name, dom, cod, data, z, is_mixed, self_adjoint)` -/
  | gen (name : String) (dom cod : List QOb) (data : Option (NdArray ℂ)) (z : Int) (mixed selfAdj : Bool)
  /-- `SelfConjugate(name, dom, cod, data, self_adjoint=...)` -/
  | selfConj (name : String) (dom cod : List QOb) (data : Option (NdArray ℂ)) (selfAdj : Bool)
  | swap (l r : QOb)
  | ket (b : Bool)
  | bra (b : Bool)
  | bit (b : Bool)
  | rot (ax : Axis) (phase : ℝ)
  | controlled (u : QBox) (distance : Int)
  | scalar (c : ℂ)
  | sqrt (c : ℂ)
  | daggered (b : QBox)
  | measure | encode | discard | mixedState

namespace QBox

/-- `qubit ** n` -/
def qubits (n : Nat) : List QOb := List.replicate n .qubit

/-- Domain and codomain: quantum.py:146-147, 728-729, 773, 806, 864, 942-946, 1030, 1040, 1050, 1060, 1072-1073, 1139-1140, 1179. -/
def sig : QBox → List QOb × List QOb
  | gen _ d c _ _ _ _ => (d, c)
  | selfConj _ d c _ _ => (d, c)
  | swap l r => ([l, r], [r, l])
  | ket _ => ([], [.qubit])
  | bra _ => ([.qubit], [])
  | bit _ => ([], [.bit])
  | rot _ _ => ([.qubit], [.qubit])
  | controlled u d => (qubits (u.sig.1.length + d.natAbs), qubits (u.sig.1.length + d.natAbs))
  | scalar _ => ([], [])
  | sqrt _ => ([], [])
  | daggered b => (b.sig.2, b.sig.1)
  | measure => ([.qubit], [.bit])
  | encode => ([.bit], [.qubit])
  | discard => ([.qubit], [])
  | mixedState => ([], [.qubit])

def dom (b : QBox) : List QOb := b.sig.1
def cod (b : QBox) : List QOb := b.sig.2

instance : SwapSig QBox QOb where
  dom := dom
  cod := cod
  swapBox := swap
  swap_dom _ _ := rfl
  swap_cod _ _ := rfl

/-- `is_mixed`: quantum.py:150, 948, 1030, 1040, 1050, 1060, 1074, 1100, 1143. -/
def isMixed : QBox → Bool
  | gen _ _ _ _ _ m _ => m
  | controlled u _ => u.isMixed
  | daggered b => b.isMixed
  | measure | encode | discard | mixedState => true
  | _ => false

/-- `Controlled(controlled, distance)`: quantum.py:937 `assert distance`. -/
def mkControlled (u : QBox) (d : Int) : Except PyErr QBox := if d = 0 then .error .assertionError else .ok (controlled u d)

/-- `dagger`: quantum.py:157-162, 532-533 of tensor.py, 775-776, 808-809, 870-871, 1012-1014, 1032-1033, 1042-1043, 1052-1053, 1062-1063, 1088-1089,
1114-1115, 1150-1151. -/
def dagger : QBox → QBox
  | gen n d c a z m sa => if sa then gen n d c a z m sa else daggered (gen n d c a z m sa)
  | selfConj n d c a sa => if sa then selfConj n d c a sa else daggered (selfConj n d c a sa)
  | swap l r => swap r l
  | ket b => bra b
  | bra b => ket b
  | bit b => daggered (bit b)
  | rot ax θ => rot ax (-θ)
  | controlled u d => controlled u.dagger d
  | scalar c => scalar (star c)
  | sqrt c => sqrt (star c)
  | daggered b => b
  | measure => encode
  | encode => measure
  | discard => mixedState
  | mixedState => discard

/-- `rotate`: quantum.py:594-595, 602-605, 1016-1022, tensor.py:219-237, grammar.py:1684-1686 and 1873-1879. `dataclasses.replace` calls the
constructor with the fields of `tensor.Box`: it loses the two flags of a plain box, raises `ValueError` for `Scalar` and `Sqrt` (their fields are
`init=False`) and `TypeError` for `Bit` (its `__new__` takes no keywords). -/
def rotate (z : Int) : QBox → Except PyErr QBox
  | gen n d c a z0 _ _ => .ok (gen n (if z % 2 = 1 then d.reverse else d) (if z % 2 = 1 then c.reverse else c) a ((z0 + z) % 2) false false)
  | selfConj n d c a sa => .ok (selfConj n d c a sa)
  | swap l r => .ok (if z % 2 = 1 then swap r l else swap l r)
  | ket b => .ok (ket b)
  | bra b => .ok (bra b)
  | bit _ => .error .typeError
  | rot ax θ => match ax with
    | .y => .ok (rot .y θ)
    | _ => .ok (if z % 2 = 0 then rot ax θ else (rot ax θ).dagger)
  | controlled u d =>
    if z % 2 = 0 then .ok (controlled u d)
    else match u.rotate z with
      | .error e => .error e
      | .ok u' => .ok (controlled u' (-d))
  | scalar _ => .error .valueError
  | sqrt _ => .error .valueError
  | daggered b => match b.rotate z with
    | .error e => .error e
    | .ok b' => .ok (daggered b')
  | measure => .ok measure
  | encode => .ok encode
  | discard => .ok discard
  | mixedState => .ok mixedState

/-! ## Arrays -/

/-- `np.kron` of two matrices. -/
def kron (a b : NdArray ℂ) : NdArray ℂ :=
  NdArray.ofFn [a.shape.getD 0 0 * b.shape.getD 0 0, a.shape.getD 1 0 * b.shape.getD 1 0] (fun i =>
    a.get [i.getD 0 0 / b.shape.getD 0 0, i.getD 1 0 / b.shape.getD 1 0] * b.get [i.getD 0 0 % b.shape.getD 0 0, i.getD 1 0 % b.shape.getD 1 0])

/-- `np.eye` -/
def eye (d : Nat) : NdArray ℂ := NdArray.ofFn [d, d] (fun i => if i.getD 0 0 = i.getD 1 0 then 1 else 0)

/-- Sum of two arrays of the same shape. -/
def add (a b : NdArray ℂ) : NdArray ℂ := ⟨a.shape, List.zipWith (· + ·) a.flat b.flat⟩

/-- quantum.py:1000-1010 for `distance == 1`: the array of a controlled gate on `m` targets with array `a`. -/
def controlledArray (m : Nat) (a : NdArray ℂ) : Except PyErr (NdArray ℂ) :=
  match a.reshape [2 ^ m, 2 ^ m] with
  | .error e => .error e
  | .ok a2 => (add (kron ⟨[2, 2], [1, 0, 0, 0]⟩ (eye (2 ^ m))) (kron ⟨[2, 2], [0, 0, 0, 1]⟩ a2)).reshape (List.replicate (2 * (m + 1)) 2)

/-- quantum.py:877-919: entries `[in, out]`. `half_theta = π * phase`. -/
def rotArray (ax : Axis) (θ : ℝ) : NdArray ℂ :=
  let s : ℂ := Complex.sin (Real.pi * θ)
  let c : ℂ := Complex.cos (Real.pi * θ)
  let i := Complex.I
  match ax with
  | .x => ⟨[2, 2], [c * 1 - i * s * 0, c * 0 - i * s * 1, c * 0 - i * s * 1, c * 1 - i * s * 0]⟩
  | .y => ⟨[2, 2], [c * 1 - i * s * 0, c * 0 - i * s * i, c * 0 - i * s * (-i), c * 1 - i * s * 0]⟩
  | .z =>
    let e1 := Complex.exp (-i * (Real.pi * θ))
    let e2 := Complex.exp (i * (Real.pi * θ))
    ⟨[2, 2], [e1 * 1 + e2 * 0, e1 * 0 + e2 * 0, e1 * 0 + e2 * 0, e1 * 0 + e2 * 1]⟩

/-- quantum.py:975-980: the wire pattern of `Controlled.decompose` for `m` targets. -/
def ctrlPattern (m : Nat) (d : Int) : List Int :=
  let n := m + d.natAbs
  let skipped := n - (1 + m)
  if d > 0 then 0 :: ((List.range' (skipped + 1) (n - (skipped + 1))).map Int.ofNat ++ (List.range' 1 skipped).map Int.ofNat)
  else ((n : Int) - 1) :: (List.range (n - 1)).map Int.ofNat

/-- `Controlled.decompose`, quantum.py:965-987. -/
def decompose (u : QBox) (d : Int) : Except PyErr (Diagram QOb QBox) :=
  if d = 1 then .ok (ofBox (controlled u 1))
  else
    let n := u.dom.length + d.natAbs
    let skipped := n - (1 + u.dom.length)
    match permutation (B := QBox) (qubits n) (ctrlPattern u.dom.length d) with
    | .error e => .error e
    | .ok perm => match andThen perm (tensor (ofBox (controlled u 1)) (Diagram.id (qubits skipped))) with
      | .error e => .error e
      | .ok e => andThen e (daggerWith dagger perm)

/-- What `to_tn` asks about a box. -/
def kind : QBox → BoxKind
  | swap _ _ => .swap
  | _ => .other

/-- The method `decompose` exists only in `Controlled`; it never fails (`decompose_spec`). -/
def decomposeOpt : QBox → Option (Diagram QOb QBox)
  | controlled u d => match decompose u d with
    | .ok e => some e
    | .error _ => none
  | _ => none

/-- A category in which all controlled gates have the same array: used for the decomposition of one controlled gate, where only
`Controlled(u, 1)` and swaps occur (`array_controlled` shows that the array of a controlled gate is the value of its decomposition). -/
def oneGate (a : Except PyErr (NdArray ℂ)) : TnCat QOb QBox ℂ where
  dim _ := 2
  kind := kind
  array
    | controlled _ _ => a
    | _ => .error .typeError
  decompose := decomposeOpt

/-- Evaluation gives an array with two axes per wire (inputs first). -/
def evalArray (C : TnCat QOb QBox ℂ) (d : Diagram QOb QBox) : Except PyErr (NdArray ℂ) :=
  match C.eval d with
  | .error e => .error e
  | .ok F => .ok (NdArray.ofFn (qDims d.dom ++ qDims d.cod) F)

/-- `array`: tensor.py:175-183 and 614-616, quantum.py:773, 806, 877-919, 995-1010, 1081-1084, 1107-1110, 1179. Boxes without data have no array
(`None`): building a node from it raises. The array of a controlled gate whose gate is mixed is not claimed to be modelled. -/
def array : QBox → Except PyErr (NdArray ℂ)
  | gen n d c a z _ _ => TBox.array (.gen n (qDims d) (qDims c) a z)
  | selfConj n d c a _ => TBox.array (.gen n (qDims d) (qDims c) a 0)
  | swap _ _ => .error .typeError
  | ket b => .ok ⟨[2], if b then [0, 1] else [1, 0]⟩
  | bra b => .ok ⟨[2], if b then [0, 1] else [1, 0]⟩
  | bit b => .ok ⟨[2], if b then [0, 1] else [1, 0]⟩
  | rot ax θ => .ok (rotArray ax θ)
  | controlled u d =>
    let one := match u.array with
      | .error e => .error e
      | .ok a => controlledArray u.dom.length a
    if d = 1 then one
    else match decompose u d with
      | .error e => .error e
      | .ok e => match evalArray (oneGate one) e with
        | .error e => .error e
        | .ok a => a.reshape (List.replicate (2 * (u.dom.length + d.natAbs)) 2)
  | scalar c => .ok ⟨[], [c]⟩
  | sqrt c => .ok ⟨[], [c ^ (1 / 2 : ℂ)]⟩
  | daggered b => match b.array with
    | .error e => .error e
    | .ok a => TBox.adjointArray (qDims b.dom) (qDims b.cod) a
  | measure | encode | discard | mixedState => .error .typeError

/-- The quantum category as the pure `to_tn` (tensor.py:353-420) sees it. -/
def tnCat : TnCat QOb QBox ℂ where
  dim _ := 2
  kind := kind
  array := array
  decompose := decomposeOpt

/-! ## The constant gates, quantum.py:1182-1199 -/

def H : QBox := selfConj "H" [.qubit] [.qubit]
  (some ⟨[2, 2], [((Real.sqrt 2)⁻¹ : ℝ) * 1, ((Real.sqrt 2)⁻¹ : ℝ) * 1, ((Real.sqrt 2)⁻¹ : ℝ) * 1, ((Real.sqrt 2)⁻¹ : ℝ) * (-1)]⟩) true
def S : QBox := gen "S" [.qubit] [.qubit] (some ⟨[2, 2], [1, 0, 0, Complex.I]⟩) 0 false false
def T : QBox := gen "T" [.qubit] [.qubit] (some ⟨[2, 2], [1, 0, 0, Complex.exp (Complex.I * Real.pi / 4)]⟩) 0 false false
def X : QBox := selfConj "X" [.qubit] [.qubit] (some ⟨[2, 2], [0, 1, 1, 0]⟩) true
def Y : QBox := gen "Y" [.qubit] [.qubit] (some ⟨[2, 2], [0, Complex.I, -Complex.I, 0]⟩) 0 false true
def Z : QBox := selfConj "Z" [.qubit] [.qubit] (some ⟨[2, 2], [1, 0, 0, -1]⟩) true
def CX : QBox := controlled X 1
def CY : QBox := controlled Y 1
def CZ : QBox := controlled Z 1
def CCX : QBox := controlled CX 1
def CCZ : QBox := controlled CZ 1

end QBox
end
end Lambeq
