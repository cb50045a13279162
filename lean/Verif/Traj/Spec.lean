import Verif.Traj.Model

/-!
# What evaluating a trajectory means

Independent of how the interpolation is computed.
-/

namespace Beluga.Traj

variable {K : Type} [Field K] [LinearOrder K]

/-- `x` lies between the stamps `i` and `j`, which have no other stamp in between, and divides the distance as `θ`. -/
structure Between (ts : List K) (x : K) (i j : Nat) (θ : K) : Prop where
  i_lt : i < ts.length
  j_lt : j < ts.length
  nonneg : 0 ≤ θ
  le_one : θ ≤ 1
  time : x = (1 - θ) * ts.getD i 0 + θ * ts.getD j 0
  order : ts.getD i 0 ≤ ts.getD j 0
  neighbours : ∀ k < ts.length, ¬(ts.getD i 0 < ts.getD k 0 ∧ ts.getD k 0 < ts.getD j 0)

/-- The stored point number `k` of an array. -/
def rowAt (a : Arr K) (k : Nat) : List K :=
  match a with
  | .vec l => l[k]?.toList
  | .mat _ rows => rows.getD k []

/-- The array has one entry or row for each of `n` times. -/
def Fits (n : Nat) : Arr K → Prop
  | .vec l => l.length = n
  | .mat c rows => rows.length = n ∧ ∀ r ∈ rows, r.length = c

/-- The array fits or is the empty array of a missing quantity. -/
def FitsOrEmpty (n : Nat) (a : Arr K) : Prop := a = .vec [] ∨ Fits n a

/-- The convex combination of two points. -/
def mix (θ : K) (p q : List K) : List K := List.zipWith (fun a b => (1 - θ) * a + θ * b) p q

end Beluga.Traj
