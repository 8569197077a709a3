import Mathlib.Algebra.Order.Field.Rat
import Mathlib.Data.Rat.Floor
import Verif.Model.ODE

/-!
The time loop of `fvhoe/ode.py` with the arithmetic of the machine: the clock `self.t`, the step sizes and the target
times are binary floating-point numbers, and `target - t` and `self.t += dt` round.

Numbers are rationals. A format has `p` significant bits and exponents from `emin` up, so subnormal numbers are
included; infinities are left out (no sum here exceeds the largest time by more than a step). Rounding is to nearest, ties
to even. What the state does with a step is arbitrary.
-/

namespace FVHOE

/-- A binary floating-point format: bits of precision and least exponent. -/
structure Format where
  p : ℕ
  emin : ℤ

/-- Python's `float`. -/
def double : Format := ⟨53, -1074⟩

/-- The exponent `k` with `2 ^ k ≤ |x| < 2 ^ (k + 1)`. -/
def binade (x : ℚ) : ℤ :=
  let k : ℤ := (Nat.log2 x.num.natAbs : ℤ) - (Nat.log2 x.den : ℤ)
  if (2 : ℚ) ^ k ≤ |x| then k else k - 1

/-- The exponent of the last bit of the numbers around `x`. -/
def Format.lastBit (F : Format) (x : ℚ) : ℤ := max (binade x + 1 - F.p) F.emin

/-- The nearest integer, the even one of two. -/
def roundEven (x : ℚ) : ℤ :=
  if x - ⌊x⌋ < 1 / 2 then ⌊x⌋
  else if 1 / 2 < x - ⌊x⌋ then ⌊x⌋ + 1
  else if ⌊x⌋ % 2 = 0 then ⌊x⌋ else ⌊x⌋ + 1

/-- Rounding to the format: to nearest, ties to even. -/
def Format.fl (F : Format) (x : ℚ) : ℚ := roundEven (x / 2 ^ F.lastBit x) * 2 ^ F.lastBit x

/-- How times are added and subtracted. -/
structure ClockOps (K : Type) where
  add : K → K → K
  sub : K → K → K

/-- Floating-point addition and subtraction. -/
def Format.ops (F : Format) : ClockOps ℚ := ⟨fun a b => F.fl (a + b), fun a b => F.fl (a - b)⟩

/-- Addition and subtraction without rounding. -/
def exactOps (K : Type) [Field K] : ClockOps K := ⟨(· + ·), (· - ·)⟩

variable {K : Type} [LinearOrder K] {U S : Type}

/-- ode.py 11-22 `_hit_target`. -/
def hitTargetWith (A : ClockOps K) (t dt : K) : Option K → K
  | some target => if A.sub target t < dt then A.sub target t else dt
  | none => dt

/-- A stepper before `_hit_target` (ode.py 249, 261, 275, 289): the proposed step size, and the new state for the step size
that is then used. -/
abbrev Proposal (K U : Type) := K → U → Except PyErr (K × (K → Except PyErr U))

/-- ode.py 183-193 `take_step` with the steppers of ode.py 248-297. -/
def ODEState.takeStepWith (A : ClockOps K) (prop : Proposal K U) (st : ODEState K U S) (target : Option K) :
    Outcome K U S :=
  match prop st.t st.u with
  | .error e => (st, some e)
  | .ok (dt0, go) =>
    match go (hitTargetWith A st.t dt0 target) with
    | .error e => (st, some e)
    | .ok unext =>
      ({ st with t := A.add st.t (hitTargetWith A st.t dt0 target), u := unext,
                 timestamps := st.timestamps ++ [A.add st.t (hitTargetWith A st.t dt0 target)],
                 stepCount := st.stepCount + 1 }, none)

/-- ode.py 157-166: the `while self.t < T` loop. `none` means that `fuel` iterations were not enough. -/
def ODEState.loopWith (A : ClockOps K) (prop : Proposal K U) (mk : ODEState K U S → S) (T : K) (logEvery : Bool) :
    ℕ → Option K → List K → ODEState K U S → Option (Outcome K U S)
  | 0, _, _, _ => none
  | fuel + 1, target, downbeats, st =>
    if st.t < T then
      match st.takeStepWith A prop target with
      | (st1, some e) => some (st1, some e)
      | (st1, none) =>
        if target = some st1.t ∨ T ≤ st1.t ∨ logEvery = true then
          let st2 := st1.snapshot mk
          match downbeats with
          | [] => ODEState.loopWith A prop mk T logEvery fuel target [] st2
          | d :: ds =>
            if target = some st1.t then ODEState.loopWith A prop mk T logEvery fuel (some d) ds st2
            else ODEState.loopWith A prop mk T logEvery fuel target (d :: ds) st2
        else ODEState.loopWith A prop mk T logEvery fuel target downbeats st1
    else some (st, none)

/-- ode.py 141-167 with `exact=True`: the key times are sorted and compared, which does not round. -/
def ODEState.integrateWith [Zero K] (A : ClockOps K) (prop : Proposal K U) (mk : ODEState K U S → S) (T : K)
    (downbeats : List K) (logEvery : Bool) (fuel : ℕ) (st : ODEState K U S) : Option (Outcome K U S) :=
  match (List.insertionSort (· ≤ ·) (0 :: (downbeats ++ [T])).dedup).tail with
  | [] => some (st, some .indexError)
  | d :: ds => ODEState.loopWith A prop mk T logEvery fuel (some d) ds (st.snapshot mk)

end FVHOE
