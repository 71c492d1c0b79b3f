import Verif.Model.Structure

set_option autoImplicit false

/-! # Model of the satellite built in `examples/utility/helper.py` and `examples/utility/template_objects.py` -/

namespace Adcs.Examples

open Adcs Str

/-- `given_axes` on lines 42-50 of `examples/utility/helper.py`: inclination pi/3 from the z axis, azimuths pi/4 and
steps of a right angle. -/
noncomputable def givenAxis (k : Fin 4) : V3 :=
  ![Real.sin (Real.pi / 3) * Real.cos (Real.pi / 4 + k * Real.pi / 2),
    Real.sin (Real.pi / 3) * Real.sin (Real.pi / 4 + k * Real.pi / 2), Real.cos (Real.pi / 3)]

/-- `my_rw_system` on lines 42-55 of `examples/utility/helper.py`. -/
noncomputable def myRwSystem : Py RWSystem :=
  RWSystem.init (fun k : Fin 4 => Wheel.init (givenAxis k) 1.64023e-6 1.02562e-6) 0.0005 true

/-- `torquers` on lines 33-39 of `examples/utility/helper.py` (`linearized` is true). -/
noncomputable def myTorquers : Py (Fin 3 → Magnetorquer) :=
  pyForall ![Magnetorquer.init "LinearRod" ![1, 0, 0] 0.0625, Magnetorquer.init "LinearRod" ![0, 1, 0] 0.0625,
    Magnetorquer.init "Square" ![0, 0, 1] 0.2887]

/-- `my_instruments` on lines 29-30 of `examples/utility/helper.py`. The attributes that `set_gains` sets later are
parameters here, as in `Instrument.mk'`. -/
noncomputable def myInstruments (stop : ℝ) (gains : Fin 2 → ℝ) : List Instrument :=
  [Instrument.mk' ![0, 0, -1] 2 ![15, 100] ![true, false] [0] stop gains,
   Instrument.mk' ![0, -1, 0] 2 ![180, 180] ![false, false] [] stop gains]

/-- `principal_moments`, lines 62-64 of `examples/utility/helper.py`. -/
noncomputable def principalMoments : V3 := ![1.378574142e-2, 1.378854578e-2, 5.49370596e-3]

/-- `make_satellite`, lines 27-92 of `examples/utility/helper.py` (the same lines are in `simulator_example.py` 8-74,
`structure_example.py` 11-71 and `dynamics_example.py` 29-81, there with an empty list of sensors). The list of sensors
is left out. -/
noncomputable def makeSatellite (stop : ℝ) (gains : Fin 2 → ℝ) : Py Satellite :=
  match myTorquers with
  | .error e => .error e
  | .ok torquers =>
    match myRwSystem with
    | .error e => .error e
    | .ok rw => Satellite.init 3.0 ![0.1, 0.1, 0.2] 0.84 1.0 principalMoments (fun i => principalMoments i * 0.1) false rw
        torquers (myInstruments stop gains)

/-- `make_satellite`, lines 29-95 of `examples/utility/template_objects.py`. Its list is called `sensors` like the
name it looks up on the right (lines 72-80), so that `sensors` is a local variable without a value there. -/
noncomputable def makeSatelliteTemplate (_stop : ℝ) (_gains : Fin 2 → ℝ) : Py Satellite :=
  match myTorquers with
  | .error e => .error e
  | .ok _ =>
    match myRwSystem with
    | .error e => .error e
    | .ok _ => .error .unboundLocal

/-- The currents of `cmds[0]`, line 123 of `examples/utility/helper.py` and line 115 of `simulator_example.py`. -/
noncomputable def exampleCurrents : Fin 3 → ℝ := ![0, 0, 300000]

end Adcs.Examples
