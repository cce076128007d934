import Mathlib.Analysis.SpecialFunctions.Log.Basic

/-!
Model of `calo::CalorimetryAlg` (larreco/Calorimetry/CalorimetryAlg.cxx).  Numbers are reals (no rounding).  The functions
of the angle (`fModBoxBF`, `fBirksKF`) are given by their values.
-/

namespace Verif.CaloAlg

/-- `ModBoxCorrection`, CalorimetryAlg.cxx:247-260: `b` is the value of the function of the angle, `w` is `Wion` -/
noncomputable def modBox (a b w rho field dQdx : ℝ) : ℝ :=
  let beta := b / (rho * field)
  (Real.exp (beta * w * dQdx) - a) / beta

/-- `BirksCorrection`, CalorimetryAlg.cxx:262-276 -/
noncomputable def birks (a k w rho field dQdx : ℝ) : ℝ :=
  dQdx / (a / w - k / rho / field * dQdx)

/-- the exponential form of `LifetimeCorrection`, CalorimetryAlg.cxx:221-241; `tick` is the sampling period and `T0` the time
of the track in the same unit divided by a thousand -/
noncomputable def lifetime (offset tick tau time t0 : ℝ) : ℝ :=
  Real.exp (((time - offset) * (tick / 1000) - t0 / 1000) / tau)

/-- the charge per length that a deposit of `e` leaves according to the modified box model: the formula that
`ModBoxCorrection` inverts (specification, not in the code) -/
noncomputable def boxCharge (a b w rho field e : ℝ) : ℝ :=
  Real.log (a + b / (rho * field) * e) / (b / (rho * field) * w)

/-- the charge per length that a deposit of `e` leaves according to Birks (specification, not in the code) -/
noncomputable def birksCharge (a k w rho field e : ℝ) : ℝ := (a / w) * e / (1 + k / rho / field * e)

/-- `dEdx_from_dQdx_e` after the conversion to electrons, CalorimetryAlg.cxx:67-69 and 200-216: `life` is the lifetime
correction -/
noncomputable def dEdx (doLife useBox : Bool) (const life : ℝ) (box birk : ℝ → ℝ) (dQdx : ℝ) : ℝ :=
  let q := if doLife then dQdx / const * life else dQdx / const
  if useBox then box q else birk q

end Verif.CaloAlg
