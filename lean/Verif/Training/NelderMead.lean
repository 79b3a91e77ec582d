import Verif.Training.Spsa

/-!
# The Nelder-Mead optimiser

Models `lambeq/training/nelder_mead_optimizer.py` (whole file).

Simplifications. Floating point numbers are exact elements of an ordered field; losses are numbers (no infinities, not-a-number).
The arrays `sim` and `fsim`, which the code always permutes together, are one list of pairs (point, loss); before the first call the
losses are placeholders. `numpy.argsort` (not stable) followed by `take` is a parameter `sort`. Calling the model and the loss
function on the batch is one function of the weights; the points at which it is called are returned. A batch is given by the free
symbols of its diagrams. Warnings (and so `maxfev`, which has no other use) are left out.
-/

namespace Lambeq
namespace Train

variable {K : Type} [Field K] [LinearOrder K]

/-- A vertex of the simplex with its loss: a row of `sim` and an entry of `fsim`. -/
abbrev Vertex (K : Type) := List K × K

/-- The attributes of a `NelderMeadOptimizer` and the weights of its model. -/
structure NM (K : Type) where
  weights : List K
  gradient : List K
  bounds : Option (List (K × K))
  sim : List (Vertex K)
  first : Bool
  ncalls : Nat
  sweep : Nat
  adaptive : Bool
  initialSimplex : Option (List (List K))
  rho : K
  chi : K
  psi : K
  sigma : K
  xatol : K
  fatol : K
  deriving DecidableEq

/-- numpy array arithmetic -/
def vadd (x y : List K) : List K := List.zipWith (· + ·) x y
/-- numpy array arithmetic -/
def vsub (x y : List K) : List K := List.zipWith (· - ·) x y
/-- numpy array arithmetic -/
def vscale (k : K) (x : List K) : List K := x.map (k * ·)

/-- nelder_mead_optimizer.py:221-225 -/
def clipTo (bounds : Option (List (K × K))) (x : List K) : List K :=
  match bounds with
  | none => x
  | some bds => List.zipWith (fun (b : K × K) v => min (max v b.1) b.2) bds x

/-- nelder_mead_optimizer.py:194-199 -/
def initVertex (w : List K) (k : Nat) : List K :=
  w.modify k (fun y => if y ≠ 0 then (1 + 5 / 100) * y else 25 / 100000)

/-- nelder_mead_optimizer.py:189-215: the rows of the first simplex, before projection. -/
def initRows (w : List K) (simplex : Option (List (List K))) : Except PyErr (List (List K)) :=
  match simplex with
  | none => .ok (w :: (List.range w.length).map (initVertex w))
  | some [] => .error .valueError
  | some (r :: rows) =>
    if rows.any (fun r' => r'.length ≠ r.length) then .error .valueError
    else if rows.length + 1 ≠ r.length + 1 then .error .valueError
    else if w.length ≠ r.length then .error .valueError
    else .ok (r :: rows)

/-- nelder_mead_optimizer.py:158-186: check the bounds, project the weights. -/
def initBounds (w : List K) (bounds : Option (List (K × K))) : Except PyErr (List K) :=
  match bounds with
  | none => .ok w
  | some bds =>
    if bds.length ≠ w.length then .error .valueError
    else if bds.any (fun b => b.2 < b.1) then .error .valueError
    else .ok (clipTo (some bds) w)

/-- nelder_mead_optimizer.py:143-153: `rho`, `chi`, `psi`, `sigma` -/
def coefficients (adaptive : Bool) (dim : Nat) : Except PyErr (K × K × K × K) :=
  if adaptive then
    if dim = 0 then .error .zeroDivisionError
    else .ok (1, 1 + 2 / (dim : K), 3 / 4 - 1 / (2 * (dim : K)), 1 - 1 / (dim : K))
  else .ok (1, 2, 1 / 2, 1 / 2)

/-- nelder_mead_optimizer.py:62-219 -/
def NM.init (w : List K) (adaptive : Bool) (simplex : Option (List (List K))) (xatol fatol : K) (bounds : Option (List (K × K))) :
    Except PyErr (NM K) := do
  let c ← coefficients adaptive w.length
  let w' ← initBounds w bounds
  let rows ← initRows w' simplex
  .ok { weights := w', gradient := w.map (fun _ => 0), bounds := bounds, sim := rows.map (fun r => (clipTo bounds r, 0)), first := true,
        ncalls := 0, sweep := 1, adaptive := adaptive, initialSimplex := simplex, rho := c.1, chi := c.2.1, psi := c.2.2.1,
        sigma := c.2.2.2, xatol := xatol, fatol := fatol }

/-- `numpy.abs(a - b).max() <= tol` for the rows of `a` -/
def allClose (tol : K) (a b : List K) : Bool := (List.zipWith (fun x y => |x - y|) a b).all (· ≤ tol)

/-- nelder_mead_optimizer.py:306-309 -/
def NM.converged (s : NM K) (x0 : Vertex K) (rest : List (Vertex K)) : Bool :=
  rest.all (fun v => allClose s.xatol v.1 x0.1) && rest.all (fun v => decide (|x0.2 - v.2| ≤ s.fatol))

/-- nelder_mead_optimizer.py:310 -/
def centroid (n : Nat) (sim : List (Vertex K)) : List K :=
  ((sim.dropLast.map Prod.fst).foldr vadd (List.replicate n 0)).map (· / (n : K))

/-- The outcome of lines 311-349: the new last vertex, or `shrink = True`. -/
inductive Trial (K : Type)
  | replace (v : Vertex K)
  | shrink

/-- nelder_mead_optimizer.py:311 -/
def NM.reflected (s : NM K) (xbar xl : List K) : List K := clipTo s.bounds (vsub (vscale (1 + s.rho) xbar) (vscale s.rho xl))
/-- nelder_mead_optimizer.py:316-318 -/
def NM.expanded (s : NM K) (xbar xl : List K) : List K := clipTo s.bounds (vadd xbar (vscale (s.rho * s.chi) (vsub xbar xl)))
/-- nelder_mead_optimizer.py:331-333 -/
def NM.contracted (s : NM K) (xbar xl : List K) : List K := clipTo s.bounds (vadd xbar (vscale (s.psi * s.rho) (vsub xbar xl)))
/-- nelder_mead_optimizer.py:342 -/
def NM.insideContracted (s : NM K) (xbar xl : List K) : List K := clipTo s.bounds (vadd xbar (vscale s.psi (vsub xl xbar)))
/-- nelder_mead_optimizer.py:353-356 -/
def NM.shrunk (s : NM K) (x0 x : List K) : List K := clipTo s.bounds (vadd x0 (vscale s.sigma (vsub x x0)))

/-- nelder_mead_optimizer.py:311-349. `f0`, `f2`, `fl` are `fsim[0]`, `fsim[-2]`, `fsim[-1]`, `xl` is `sim[-1]`. -/
def NM.trial (s : NM K) (f : List K → K) (xbar : List K) (f0 f2 : K) (last : Vertex K) : Trial K × List (List K) :=
  let xr := s.reflected xbar last.1
  if f xr < f0 then
    let xe := s.expanded xbar last.1
    if f xe < f xr then (.replace (xe, f xe), [xr, xe]) else (.replace (xr, f xr), [xr, xe])
  else if f xr < f2 then (.replace (xr, f xr), [xr])
  else if f xr < last.2 then
    let xc := s.contracted xbar last.1
    if f xc ≤ f xr then (.replace (xc, f xc), [xr, xc]) else (.shrink, [xr, xc])
  else
    let xcc := s.insideContracted xbar last.1
    if f xcc < last.2 then (.replace (xcc, f xcc), [xr, xcc]) else (.shrink, [xr, xcc])

/-- nelder_mead_optimizer.py:351-359 and the assignments to `sim[-1]`, `fsim[-1]` in 311-349; the simplex is `x0 :: rest`. -/
def NM.applyTrial (s : NM K) (f : List K → K) (x0 : Vertex K) (rest : List (Vertex K)) : Trial K → List (Vertex K) × List (List K)
  | .replace v => ((x0 :: rest).dropLast ++ [v], [])
  | .shrink =>
    let pts := rest.map (fun v => s.shrunk x0.1 v.1)
    (x0 :: pts.map (fun p => (p, f p)), pts)

/-- nelder_mead_optimizer.py:310-359: the simplex afterwards and the points evaluated. -/
def NM.iterate (s : NM K) (f : List K → K) (x0 : Vertex K) (rest : List (Vertex K)) : List (Vertex K) × List (List K) :=
  let sim := x0 :: rest
  let last := sim.getLast (by simp [sim])
  let f2 := ((x0 :: rest.dropLast).getLast (by simp)).2
  let t := s.trial f (centroid rest.length sim) x0.2 f2 last
  let r := s.applyTrial f x0 rest t.1
  (r.1, t.2 ++ r.2)

/-- nelder_mead_optimizer.py:306-359, with the test of 306; `numpy.max` of an empty array raises. -/
def NM.improve (s : NM K) (f : List K → K) : List (Vertex K) → Except PyErr (List (Vertex K) × List (List K))
  | [] => .error .indexError
  | [_] => .error .valueError
  | x0 :: rest => .ok (if s.converged x0 rest then (x0 :: rest, []) else s.iterate f x0 rest)

/-- nelder_mead_optimizer.py:297-304 -/
def NM.start (s : NM K) (sort : List (Vertex K) → List (Vertex K)) (f : List K → K) : List (Vertex K) × List (List K) :=
  if s.first then (sort (s.sim.map (fun v => (v.1, f v.1))), s.sim.map Prod.fst) else (s.sim, [])

/-- nelder_mead_optimizer.py:264-374: the optimiser afterwards, the loss returned and the points evaluated, in order. -/
def NM.backward (s : NM K) (sort : List (Vertex K) → List (Vertex K)) (symbols : List String) (free : List (List String)) (f : List K → K) :
    Except PyErr (NM K × K × List (List K)) := do
  let mask : List K ← symbolMask symbols free
  let st := s.start sort f
  let im ← s.improve f st.1
  let sim := sort im.1
  let pts := st.2 ++ im.2
  match sim with
  | [] => .error .valueError
  | x0 :: rest =>
    .ok ({ s with sim := sim, first := false, ncalls := s.ncalls + pts.length, weights := pts.getLastD s.weights,
                  gradient := List.zipWith (· * ·) x0.1 mask },
         (rest.map Prod.snd).foldl min x0.2, pts)

/-- nelder_mead_optimizer.py:376-385 with optimizer.py:94-96 -/
def NM.step (s : NM K) : NM K :=
  { s with weights := clipTo s.bounds s.gradient, sweep := s.sweep + 1, gradient := s.gradient.map (· * 0) }

/-- What `state_dict` returns, nelder_mead_optimizer.py:387-406. -/
structure NMState (K : Type) where
  adaptive : Bool
  initialSimplex : Option (List (List K))
  xatol : K
  fatol : K
  sim : List (Vertex K)
  ncalls : Nat
  first : Bool
  sweep : Nat

/-- nelder_mead_optimizer.py:387-406 -/
def NM.stateDict (s : NM K) : NMState K := ⟨s.adaptive, s.initialSimplex, s.xatol, s.fatol, s.sim, s.ncalls, s.first, s.sweep⟩

/-- nelder_mead_optimizer.py:408-425 -/
def NM.loadStateDict (s : NM K) (d : NMState K) : NM K :=
  { s with adaptive := d.adaptive, initialSimplex := d.initialSimplex, xatol := d.xatol, fatol := d.fatol, sim := d.sim,
           ncalls := d.ncalls, first := d.first, sweep := d.sweep }

end Train
end Lambeq
