import Verif.Model.L2
import Verif.Model.Nonlinear
import Verif.Model.Palm
import Verif.Model.Counters

/-!
# Calls that are stopped midway

An exception inside a method (a failing factorization or inner solver, an interrupt from the keyboard, no memory) leaves the object with the attributes assigned so far.  A
method is described here by the list of its assignments to attributes, in the order of the code; a call that is stopped has done a first part of them.
-/

namespace Verif

/-- The attributes after the first `k` of the assignments `ws`. -/
def stoppedAfter {S : Type} (ws : List (S → S)) (s : S) (k : ℕ) : S := (ws.take k).foldl (fun st w => w st) s

section L2
variable {E F C : Type} [NormedAddCommGroup E] [InnerProductSpace ℝ E] [NormedAddCommGroup F] [InnerProductSpace ℝ F]

/-- `if self.warm: self.x0 = x` (L2.py:283-284), with the value `z` computed from the attributes at that time; without a value the line is not reached. -/
def L2.warmWrite (warm : Bool) (z : L2State E C → Option E) : List (L2State E C → L2State E C) :=
  if warm then [fun st => match z st with
    | none => st
    | some v => { st with x0 := some v }]
  else []

/-- The assignments of the body of `L2.prox` (L2.py:217-295), after the counter has been incremented to `cnt`: `tausigma` (244) and then `cl` (246) when the factorization is
recomputed, `x0` (284). -/
noncomputable def L2.bodyWrites (ext : L2Ext E F C) (a : L2Args E F) (s : L2State E C) (cnt : ℕ) (x : E) (τ : ℝ) : List (L2State E C → L2State E C) :=
  match a.data with
  | .opB Op explicit b =>
    let y := L2.subQ a (x + τ • (a.σ • Op.rmatvec b)) τ
    let n := a.niter.get cnt
    if explicit then
      if a.densesolver ≠ .factorize then
        L2.warmWrite a.warm fun _ => some (ext.div a.densesolver (Op.regNormal (τ * a.σ)) y)
      else
        (if s.tausigma ≠ τ * a.σ then
          [fun st : L2State E C => { st with tausigma := τ * a.σ }, fun st : L2State E C => { st with cl := some (ext.choFactor (Op.regNormal (τ * a.σ))) }]
        else []) ++ L2.warmWrite a.warm fun st => st.cl.map fun cl => ext.choSolve cl y
    else if a.solver.normaleqs then
      L2.warmWrite a.warm fun st => some (if a.solver = .legacy then ext.lsqr (Op.regNormal (τ * a.σ)) y n st.x0 else ext.cg (Op.regNormal (τ * a.σ)) y n st.x0)
    else
      L2.warmWrite a.warm fun st => some (ext.regInv (Op.scale (√(τ * a.σ))) (√(τ * a.σ) • b) (L2.subQ a x τ) n st.x0)
  | _ => []

/-- The assignments to attributes of `L2.prox` (L2.py:205-295): `count` (209) and, if the step is accepted, those of the body. -/
noncomputable def L2.writes (ext : L2Ext E F C) (a : L2Args E F) (s : L2State E C) (x : E) (τ : ℝ) : List (L2State E C → L2State E C) :=
  (fun st => { st with count := st.count + 1 }) :: if τ ≤ 0 then [] else L2.bodyWrites ext a s (s.count + 1) x τ

/-- What can happen to an `L2` object: a call of `prox` that returns or raises by itself, or one that is stopped after `k` assignments. -/
inductive L2CallEvent (E : Type)
  | call (x : E) (τ : ℝ)
  | stop (x : E) (τ : ℝ) (k : ℕ)

/-- The attributes after an event. -/
noncomputable def L2.event (ext : L2Ext E F C) (a : L2Args E F) (s : L2State E C) : L2CallEvent E → L2State E C
  | .call x τ => (L2.prox ext a s x τ).1
  | .stop x τ k => stoppedAfter (L2.writes ext a s x τ) s k

/-- The attributes after a history of events. -/
noncomputable def L2.afterEvents (ext : L2Ext E F C) (a : L2Args E F) (s : L2State E C) (es : List (L2CallEvent E)) : L2State E C := es.foldl (L2.event ext a) s

/-- The answers to a sequence of calls of `prox`. -/
noncomputable def L2.answers (ext : L2Ext E F C) (a : L2Args E F) : L2State E C → List (E × ℝ) → List (Py E)
  | _, [] => []
  | s, c :: cs => (L2.prox ext a s c.1 c.2).2.1 :: L2.answers ext a (L2.prox ext a s c.1 c.2).1 cs

end L2

section Nonlinear
variable {E : Type} [NormedAddCommGroup E] [InnerProductSpace ℝ E]

/-- The assignments to attributes of `Nonlinear.prox` (Nonlinear.py:99-103): `y`, `tau` and, with `warm`, `x0`, which is not reached when `optimize` raises. -/
noncomputable def NLClass.writes (C : NLClass E) (s : NLState E) (x : E) (τ : ℝ) : List (NLState E → NLState E) :=
  if τ ≤ 0 then [] else
    [fun st : NLState E => { st with y := some x }, fun st : NLState E => { st with tau := some τ }] ++
      match C.optimize { s with y := some x, tau := some τ } with
      | .error _ => []
      | .ok r => if C.warm then [fun st => { st with x0 := r }] else []

/-- The answers to a sequence of calls of `prox`. -/
noncomputable def NLClass.answers (C : NLClass E) : NLState E → List (E × ℝ) → List (Py E)
  | _, [] => []
  | s, c :: cs => (C.prox s c.1 c.2).2 :: C.answers (C.prox s c.1 c.2).1 cs

/-- The assignment to an attribute of `prox` in the classes with a call counter (L0.py:101, 153, 215; L1.py:132; RelaxedMS.py:91; TV.py:81). -/
def CountedClass.writes (_ : CountedClass E) : List (ℕ → ℕ) := [fun c => c + 1]

end Nonlinear

section LowRank
variable {ι κ μ : Type} [Fintype ι] [Fintype κ] [Fintype μ]

/-- The assignments to attributes of `LowRankFactorizedMatrix.__call__` (bilinear.py:154-165): `self.x` is replaced by the argument and put back after `_matvecy`. -/
def LowRank.callWrites (s : LowRankState ι κ μ) (x : Vec (ι × κ)) : List (LowRankState ι κ μ → LowRankState ι κ μ) :=
  [fun st => LowRank.updatex st x, fun st => LowRank.updatex st s.x]

/-- `__call__` with a second argument of `len` entries (bilinear.py:150-165, 176-179): `y.reshape(self.k, self.m)` raises `ValueError` for another number of entries than
`k * m`, and the attributes stay as they are at that time.  `y` is the argument when its size is right. -/
noncomputable def LowRank.callSized {D : Type} [NormedAddCommGroup D] [InnerProductSpace ℝ D] (H : LowRank ι κ μ D) (s : LowRankState ι κ μ) (x : Vec (ι × κ)) (len : ℕ) (y : Vec (κ × μ)) :
    Py ℝ × LowRankState ι κ μ :=
  if len = Fintype.card κ * Fintype.card μ then (.ok (H.call s x y).1, (H.call s x y).2)
  else (.error .valueError, stoppedAfter (LowRank.callWrites s x) s 1)

end LowRank

end Verif
