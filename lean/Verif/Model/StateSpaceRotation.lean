import Verif.Model.StateSpace

/-!
# The rotation of the linear state-space model

As in `doc/source/examples/lssm.rst`, lines 238-257:

    rotC = RotateGaussianARD(C, gamma)
    rotA = RotateGaussianARD(A, alpha)
    rotX = RotateGaussianMarkovChain(X, rotA)
    R = RotationOptimizer(rotX, rotC, D)
    R.rotate()

`aA` and `bA` must be the same for all elements of `alpha`, as in the example; `a0` and `b0` are their values.
-/

namespace Verif
open Matrix

variable (P : SSParams)

/-- `RotateGaussianMarkovChain(X, RotateGaussianARD(A, alpha))` after `setup`; `pre` is the flag `precompute` -/
noncomputable def ssBlockX (pre : Bool) (a0 b0 : ℝ) (s : (ssNet P).State) : RotationBlock (Fin P.D) :=
  chainBlock (P.M + 1) 1
    (chainSetup (P := Unit) (fun _ => s.u SS.x ()) (fun _ => ssInitial P) (fun _ _ d => s.u SS.a d) fun _ => inpFixed P.z)
    (ardBlockQ (B := Unit) (A₁ := Unit) (A₂ := Unit) pre 1 P.D 1 P.D 1 (fun _ => ()) (fun _ => ()) id
      (fun _ j => s.phi SS.alpha j (1 : Fin 2)) a0 b0
      (ardSetupQ (fun _ => ()) (fun _ => ()) (fun _ d => s.u SS.a d) fun _ d => ssSlot P .a () s.u d))

/-- `RotateGaussianARD(C, gamma)` after `setup` -/
noncomputable def ssBlockC (s : (ssNet P).State) : RotationBlock (Fin P.D) where
  bound := fun R logdet inv =>
    let S := ardSetup (P := Fin P.J) (fun _ => ()) (s.u SS.c) fun i => ssSlot P .c () s.u i
    let a := fun d : Fin P.D => s.phi SS.gamma d (1 : Fin 2)
    (ardBoundUpdate P.J P.J 1 id (fun _ => a) (fun _ => P.aC) (fun _ => P.bC) S R logdet,
      ardGradUpdate P.J P.J 1 id (fun _ => a) P.aC (fun _ => P.bC) S R inv)

/-- `RotateGaussianMarkovChain.rotate`, lines 1172-1189, without the update of `alpha` at its end -/
noncomputable def ssRotateX (R inv : Matrix (Fin P.D) (Fin P.D) ℝ) (logdet : ℝ) (s : (ssNet P).State) : (ssNet P).State :=
  let x := gmcRotate (M := P.M) R (some inv) (some logdet) { u := s.u SS.x (), phi := s.phi SS.x (), g := s.g SS.x () }
  let a := fun d : Fin P.D => chainRotateA (κ := Fin P.K) R inv logdet
    (fun _ : Unit => fun d : Fin P.D => { u := s.u SS.a d, phi := s.phi SS.a d, g := s.g SS.a d }) ((), d)
  { s with
    u := Function.update (Function.update s.u SS.x fun _ => x.u) SS.a fun d => (a d).u
    phi := Function.update (Function.update s.phi SS.x fun _ => x.phi) SS.a fun d => (a d).phi
    g := Function.update (Function.update s.g SS.x fun _ => x.g) SS.a fun d => (a d).g }

/-- `C.rotate(R, inv, logdet)`, for all plates -/
noncomputable def ssRotateC (R inv : Matrix (Fin P.D) (Fin P.D) ℝ) (logdet : ℝ) (s : (ssNet P).State) : (ssNet P).State :=
  let node := fun i : Fin P.J => gaussianRotate R (some inv) (some logdet)
    { u := s.u SS.c i, phi := s.phi SS.c i, g := s.g SS.c i }
  { s with
    u := Function.update s.u SS.c fun i => (node i).u
    phi := Function.update s.phi SS.c fun i => (node i).phi
    g := Function.update s.g SS.c fun i => (node i).g }

/-- the end of `RotationOptimizer.rotate`, lines 174-179, with the methods `rotate` of the blocks, where `R` is the result of the
optimisation -/
noncomputable def ssRotate (R : Matrix (Fin P.D) (Fin P.D) ℝ) (s : (ssNet P).State) : (ssNet P).State :=
  let invR := R⁻¹
  let logdetR := slogdet R
  let s := ssRotateX P R invR logdetR s
  let s := (ssNet P).update SS.alpha s
  let s := ssRotateC P invRᵀ Rᵀ (-logdetR) s
  (ssNet P).update SS.gamma s

/-- the cost function of the optimisation -/
noncomputable def ssCost (pre : Bool) (a0 b0 : ℝ) (s : (ssNet P).State) (R : Matrix (Fin P.D) (Fin P.D) ℝ) : ℝ :=
  (rotationCost (ssBlockX P pre a0 b0 s) (ssBlockC P s) R).1

end Verif
