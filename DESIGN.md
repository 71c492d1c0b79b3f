# Formal model of oresat-adcs-software in Lean 4

## 1. What this is

`lean/Verif/` contains a shallow model of the Python package `src/oresat_adcs`
(and of the flight-software part of `simulation/`), function by function, and
machine-checked theorems about it.  `properties.jsonl` lists the properties in
API terms, `MANIFEST.json` maps each property to theorem names.

Layout:

* `Verif/Py.lean` – Python exceptions as values, numpy primitives.
* `Verif/Model/*.lean` – one file per source file; every definition cites the
  source lines it models and says where it simplifies.
* `Verif/Spec/*.lean` – independent specifications (calendar arithmetic,
  Rodrigues' formula, orders, abstract transition tables, ...), written
  without reference to the model.
* `Verif/Proofs/*.lean` – helper lemmas.
* `Verif/Props/*.lean` – the property theorems (`Cnn_...`), each with an
  `example` showing that its hypotheses are met by a non-trivial case.

## 2. Modelling conventions

* **Numbers.** Python floats are modelled as real numbers `ℝ` with exact
  arithmetic, except where the code itself rounds (`timedelta` to microseconds, `int()` truncation).
  Functions whose behaviour turns on rounding errors (normalisation and what asserts or relies on it,
  saturation, the clocks) are modelled once more in `Model/Float.lean` and `Model/FloatEquatorial.lean` with binary64 rounding: floats are
  integers of at most 53 bits times a power of two, each operation rounds to a nearest float (ties open),
  `np.dot` sums in any order with or without fused multiply-add. There the exponent range is unbounded: no
  overflow, underflow, inf or nan. `Model/Ieee.lean`, `IeeeFsw.lean`, `IeeeMag.lean`, `IeeeFilter.lean` and `IeeePos.lean` have
  the signed zeros, infinities and nan for the way from readings to the commands of wheels and magnetorquers and in the two filters.
* **inf/nan.** A numpy operation that would give inf/nan is the error value
  `Exc.nonFinite`; the model does not track non-finite values further, except
  in places where the code's control flow depends on nan (shadow test).
* **Exceptions** are values: `Py α = Except Exc α`.
* **Arrays.** Vectors are functions `Fin n → ℝ`, matrices are Mathlib matrices.
  Aliasing is modelled only where a property speaks about it (state object,
  manager commands).
* **Randomness.** A draw is an explicit argument. Where a property speaks of means, variances or
  laws (C154–C157), the draws of numpy's generators are independent standard normal numbers.
* **Threads.** `StateMachine` calls are small-step programs interleaved
  arbitrarily; the lock is a mutex as in `threading.Lock`.
* **datetime** is an integer number of microseconds since 0001-01-01, range
  years 1..9999; calendar fields come from the proleptic Gregorian ordinal.
* **Unbounded loops** (`while` loops of the filters and of the manager) are inductive
  relations "a call started here ends with this result and this object", so that
  partial correctness and termination are separate theorems.
* **Objects.** A method that changes its object returns the new object; where
  it can raise half-way, the result is paired with the object as it is left.
* **Argument passing.** Calls with the wrong number of arguments, missing attributes and
  undefined names are modelled where the code has them (`TypeError`,
  `AttributeError`, `UnboundLocalError`), because several properties turn on them.
* **Linear algebra.** `np.linalg.inv` is the matrix inverse, an error for
  determinant 0; `np.linalg.pinv` of a full-row-rank matrix is `Aᵀ(AAᵀ)⁻¹`.

## 3. Trusted base

* Lean 4.33.0's kernel and Mathlib as installed. Every theorem named `Cnn_...`
  was checked with `#print axioms`: each depends on no axioms other than
  `propext`, `Classical.choice` and `Quot.sound` (`tools/sync.sh` writes the file that
  prints them). No own axioms, no `sorry`, no `native_decide`/`bv_decide`.
* That the definitions in `Verif/Model` render the cited lines of Python (read by
  hand; nothing was run).
* Real numbers for floats, except in C167 and the later properties that say so. A theorem that says "equal" means equal up to
  rounding of the float program; comparisons such as `norm == 1` in assertions are
  exact in the model. Theorems about inequalities near the boundary say nothing about
  the last bits of the float program.
* Library semantics, as modelled: numpy elementwise arithmetic and broadcasting for the shapes
  used; `np.sign`, `np.clip`, `np.arctan2` as the mathematical functions;
  `np.linalg.inv` the inverse or `LinAlgError`; `np.linalg.pinv` the Moore-Penrose
  inverse; `scipy.linalg.solve_discrete_are` any positive semidefinite solution of the Riccati
  equation (`IsDare`; C138 proves there is exactly one);
  `scipy.signal.cont2discrete` the exact zero-order hold; `Rotation.from_rotvec` the axis-angle
  quaternion; `datetime`/`timedelta` arithmetic with rounding to microseconds;
  `threading.Lock` a mutex.

### What is modelled

`tools/coverage.py` compares the lines cited in `Verif/Model` with the bodies of the
functions in `/repo`. Everything in `src/oresat_adcs` is modelled except:

* `__repr__`/`__str__`-like printing and debugging output;
* `observers.py` 217-238 (`estimate_attitude`, whose body is `pass`);
* the last three methods of `manager.py` (24-35), which only forward to a filter
  class that does not exist (`C62`, `C110`);
* sharing of one clock object between several states, except in C133–C134 (Model/Shared.lean), where clocks are references; sharing of arrays and
  of state objects, except in C202–C203 (Model/Alias.lean).

Of `simulation/` the model has `Quaternions.py`, `FlightSoftwareModule.py` (messages in
`Model/FswModule.lean`, prints only as far as they raise; the controller gain without integrator states), the gain
computation of `ADCS_Discrete_State_Space_Calculator.py`, the transfer functions of `Stability Analysis.py`
(not `ct.margin` itself, whose numbers are specified), and
`get_nadir_pointing_quaternion`. C160 needs the satellite that the simulation controls; as
Basilisk is not in the repository, `Spec.Coast` states the equations of a rigid body with balanced
reaction wheels (no friction, no external torque) as a specification. Not modelled: Basilisk itself, plotting, and the rest of
the set-up in `sim_main`. Of `examples/` only the satellite that `make_satellite` builds and the commanded currents are modelled;
`tests/` is not.

### Simplifications inside the model

* The truth model's readings are arguments of the daemon calls (`Daemon.Propagate`), not
  computed; the sensor data is the triple that `KalmanFilters.update` reads.
* `KalmanFilters` and the managers cannot be constructed by the code as written (`C62`);
  their methods are modelled for an object that has the attributes the methods use.
* `output()` hands out the filter's bias array itself; later changes through that alias
  are not modelled.
* `mode_check` of the flight software is modelled although nothing calls it.
* `pinv` of the wheel axes is the formula for full row rank; `ReactionWheelSystem` with
  dependent axes is outside of the model's success case.
* In `OldManager` what the controllers return is an argument.
* `rng.normal` with a negative standard deviation raises `ValueError`; the model has the formula `mean + std * draw`
  for every `std`, so that the theorems about noise speak of sensors with `std >= 0` only. `Model/SensorChecked.lean`
  has the check (C225).

## 4. How the theorems were tested

`seeded/LOG.jsonl` records edits to the model of the kind a programmer could make (signs, units,
swapped arguments, missing guards, off-by-one) and which theorems stopped proving. Edits under which an
English claim became false while its theorem still proved led to stronger theorems; those lines
name them under `tightened`.

The model itself was compared with the one recorded run that the repository has: `tools/replay.py` evaluates the
definitions of the environment, structure and dynamics models with floats (in Python, nothing of the library is run)
and follows `data/true_states.csv` for its 98 rows, 490 Runge-Kutta steps. Position and velocity agree to the last bit,
attitude and rate to 1e-15, the magnetic field to 5e-20 T, the direction of the sun to 4e-12. The run is of an
earlier version (class `Clock`, products of inertia counted, which is C93), without commands and in the shadow of the
Earth, so solar pressure, wheels, magnetorquers and noise are not compared.

## 5. Plan per property

"Refuted" means: the code violates the property; the negation is proved for
the model with a concrete witness, and the part that does hold is proved as a
`_partial` theorem.

| Property | Modelled | Proof |
|---|---|---|
| C01 saturation | `saturation` on `Fin n → ℝ`, max over components | case split on the limit, algebra |
| C02 normalize | `normalize`, `pointing_vector` | norm algebra |
| C03 cross, xi | matrices as written | coordinates, `ring` |
| C04–C09 quaternions | component formulas as written | isomorphism with Mathlib `Quaternion ℝ`; polynomial identities |
| C10 axis-angle | as written | Rodrigues' formula as specification, half-angle identities |
| C11 Euler angles | as written | product of three elementary quaternions |
| C12 equatorial | `_quat2equatorial` with `arctan2 = Complex.arg` | expected refuted (scalar-first against scalar-last); output ranges proved |
| C13 path_lift | as written | comparison of squared distances |
| C14–C15 frames | as written | trigonometric and cross-product identities |
| C16–C17 geodetic | as written, `asin` domain error as value | algebra |
| C18 geodetic round trip | composition | refuted (units and eccentricity differ); equator case as partial |
| C19 triad | as written, `sqrt` domain as error | vector identities |
| C20 triad degenerate | `is np.zeros(3)` is identity of fresh objects: never true | refuted |
| C21 flae | lists of weighted pairs | induction on the list; determinant expansion |
| C22–C26 Clock | fields as integers, seconds real | induction over ticks; C24, C25, C26 refuted in general, partial for steps that hit the minute |
| C27 Julian date | integer floor arithmetic | Gregorian day count specification, `omega` |
| C28–C29 JClock | integer microseconds | rounding bound, order facts |
| C30 absolute | both classes | refuted for JClock, proved for Clock |
| C31–C32 sidereal time | as written | C32 refuted (microseconds ignored) |
| C33–C36 sensors | draw as argument | unfolding, induction over propagate |
| C37–C38 magnetorquers | per type | intervals; C38 refuted (signed minimum), partial for non-negative components |
| C39–C42 wheels, inertia | pinv contract | matrix algebra, positive definiteness |
| C43–C45 walls | face list | C44 refuted (area counted twice) |
| C46–C52 environment | as written | C46 refuted (sign), C49 refuted (J3, J4), J2 part proved by derivatives |
| C53–C59 state machine | Python dispatch with arity, table with the integer entry, lock, interleavings | invariants over histories; C53, C54, C56, C58, C59 refuted with partial results |
| C60–C62 manager | commands record | C60 (stale commands) and C62 (constructors raise) refuted |
| C63–C71 controllers | as written | invariants, Lyapunov identities; C70 refuted |
| C72–C80 dynamics | vector field, RK4, loop | derivative identities, induction on steps; C76 and C79 refuted |
| C81–C87 observers | 6×6 blocks | PosDef invariants; C82, C83, C87 refuted |
| C88–C91 flight software | as written | C88, C89 refuted in part |
| C92–C93 equations of motion | vector field, `Satellite` | totality on the operating range; C93 refuted (flag inverted) |
| C94–C95 magnetic control | as written | work of the torque; both refuted (signed minimum, hysteresis memory) |
| C96–C105 tracking, avoidance | closed loop as ODE | derivatives of Lyapunov functions and potentials; C96, C97, C98, C102, C103, C104, C105 refuted |
| C106–C109 filters | one step as written | comparison with the exact flow; all refuted, with the exact deviation |
| C110–C112 managers | dispatch with arity, loops as relations | case analysis, counting of steps; refuted |
| C113–C115 flight software | as written | algebra, Moore-Penrose conditions |
| C116–C118 helpers, nadir, totality | as written | rotation specification; C116 refuted (fixed axes) |
| C119–C120 gain matrix | Riccati solution as hypothesis | Lyapunov decrease, completion of squares, summation over any control sequence |
| C121–C123 design model | error kinematics as ODE | derivatives; C121 and C123 refuted (signs) |
| C124–C126 repeated readings | `update` iterated | induction on the number of readings, closed forms |
| C127 geodetic latitude | fixed-point iteration as written | bounds on the iteration |
| C128–C129 torquer power and limits | as written | C129 refuted (`max_A` not enforced) |
| C130 clock setting | integer microseconds | interval arithmetic |
| C131–C132 manager's `propagate` | inductive relation | inversion; refuted (`AttributeError`, bias subtracted twice) |
| C133–C134 shared clock objects | heap of clocks, states with references | induction over calls; refuted (one clock moved by several simulators) |
| C135 order of a step | reals, Taylor remainder | refuted for time-dependent fields; linear fields by Taylor, analytic fields by expansion of the step and of the solution |
| C136 accuracy of `ecef_to_lla` | reals; own definition of the WGS-84 map | Taylor remainders of the series, mean value theorem for the correction step, intermediate values for existence |
| C137 avoidance regions and push | reals; angles of the bounds; the law with the push gains set to zero as reference | induction over instruments and objects comparing the two runs |
| C138–C139 gain matrices exist | integrator model, get_gain_matrix as relation | value iteration is monotone and bounded by a deadbeat input; uniqueness by optimal cost; fixed points of the disturbed loop |
| C140 exponential convergence of tracking | runs of controller and dynamics with switches and disturbing torques; runs of every duration constructed from Picard-Lindelöf pieces of a common length | strict Lyapunov function with a cross term, integrating factor, induction over the run |
| C141 Kepler's laws | motions as differentiable curves with the model's acceleration; also as curves of states of the library; local existence from Picard-Lindelöf | derivatives of the constants of motion vanish |
| C142 static magnetic field | potential and Jacobian as separate specification | differentiation |
| C143 agreement of the estimators | exact observations of a unit quaternion | uniqueness of the best attitude; permutation and scaling of the sums |
| C144 position prediction | runs of `propagate` of any length; exact circular motion | invariant quadratic form of the step; Taylor bounds |
| C145 alignment of the barbecue roll | north pole of the ecliptic and direction of the sun as vectors; claim: `check = 0` means the wanted spin | refuted (a satellite at rest, upside down); parallelogram law for what holds |
| C146 magnetic barbecue roll | `Spec.rollError`, motions `Spec.TurnsAt` of a rigid body under `m x B` | refuted for unequal transverse moments; Lyapunov function for symmetric bodies; explicit motion as example |
| C147 commanding modes | accepted lists of requests; last mission of a history | explicit routes on the table; potential function for the lower bound; induction over histories |
| C148 recovery without commands | any sequence of automatic transitions | refuted by an invariant (stuck in UNSAFE, DETUMBLE, BBQ); induction for what moves happen |
| C149 error angle as a distance | all non-zero quaternions | algebra of quaternions, triangle inequality of angles on the sphere |
| C150 gain matrix in other axes | all orthogonal changes of axes | transport of the Riccati equation, uniqueness (C138); decoupling by mirrors |
| C151 margins of one axis | all frequencies and multiples of the gain | resolvent of the design model; Jury conditions; gain margin refuted for the sampled loop |
| C152 transition methods on members | all sensor values, missions | case analysis against a table of wanted moves; refuted for UNSAFE (TypeError) and BBQ (POINT rejected) |
| C153 accuracy of simulations | all steps below a bound, durations, starts | local error of fifth order made uniform by compactness, Lipschitz estimate of a step with the normalisation, induction on the steps; existence of exact motions by Picard-Lindelöf |
| C154 law of measurements | all states, suites; law over all draws | the first draws of an independent stream are independent of the rest; one splitting per sensor |
| C155 gyro statistics | all parameters, sequences of positive steps | bias and integrated error are affine in the draws; induction on the steps for the sums of squares; refuted for a drift with mean other than zero |
| C156 mean of the gyro noise | all parameters | refuted: `arw_mean` is never used; any two values give the same histories |
| C157 honest covariance | all probability spaces, covariances, numbers of readings, gains | covariance of a sum of uncorrelated linear contributions, Joseph form, completing the square; refuted for receivers whose deviations are not those hard-coded in the filter (the examples use 30 m and 2 m/s) |
| C158 settling on the target | all moments, weights, sampling times, targets, mountings | refuted: the error is taken in inertial axes and the torque is given in body axes, so the loop has the stiffness `½ Kq R`; modes of the sampled loop outside of the unit circle (trace of the inverse pencil, Schur-Cohn), at both targets of the simulation for every inertia; exact criterion for equal moments of inertia |
| C159 what moves the satellite | all satellites, states, commands | rotation of a cross product; derivative of the total angular momentum in space |
| C160 the true loop near the target | all moments, wheel inertias, gains, targets, starts, motions | refuted at both targets of the simulation: the nonlinear sampled loop leaves every target whose linear loop has growing errors, and goes to the target where they die out (momentum-free coasting solved exactly, estimate of the quaternion, quadratic forms from the Stein equation); runs exist from every start |
| C161 transition of the attitude filter | all estimates, rates, steps, error directions | `Φ` is the derivative of the error of two exact solutions of the kinematics (uniqueness of solutions; derivative of the solution in the rate, `sinc` at rate zero) |
| C162 process noise of the attitude filter | all gyro histories; covariance over all draws | refuted: covariance of angle and bias has the wrong sign in its drift term; exact difference |
| C163 steps of a prediction | all filters, numbers and lengths of steps | refuted; exact difference for `n` steps by induction |
| C164 uncertainty in regular operation | all rates, steps, initial covariances, readings | refuted (whole turns between readings); monotone and contracting Riccati iteration, two-step observer |
| C165 the flight software as a module | all messages that have or have not come, times, histories | refuted (unbound variables); exact condition, and what is sent by induction over histories |
| C166 convergence of the attitude filter | all attitudes, biases, steps, initial covariances, small errors | refuted for every turning satellite (no multiple of a full turn between readings); at rest: steady Riccati solution, linearised loop inside the unit circle, perturbation of a stable iteration |
| C167 normalisation with rounding | `Model/Float.lean`: any rounding to nearest, any order of summation, with or without fused multiply-add | error analysis; the root of a square is exact in radix 2; the exact norm test refuted at (1, 1, 0, 0) |
| C168 saturation with rounding | as written, rounded | refuted for the torque limit of the examples; partial: at most the next float |
| C169 clock with rounding | `Clock.tick`, rounded | induction over ticks with an error bound; `absolute` refuted (seven ticks of 0.45 s), partial with one rounding per tick |
| C170 Julian date with rounding | `JClock.julian_date`, rounded | refuted (the date stands still for 20 microseconds); partial: monotone, strict from 43 microseconds on |
| C171 rotation sequences with rounding | `rotation_sequence_to_quaternion`, rounded | refuted (90, 0, 135 degrees about x, y, z); partial: unit up to rounding, the asserted norm within 9/2^53 of 1, zero angles accepted |
| C172 steps of `integrate` with rounding | `Integrator.integrate`, rounded | refuted (0.05 s, 33 811 030 steps: one too few, for every rounding to nearest); partial: exact for `(k + 1)^2 dt ≤ 0.0002 * 2^53`; durations above `2^55 dt` never end |
| C173 `JClock` with rounding | `JClock.tick`, `integrate`, rounded | proved |
| C174 `flae` with noise | all observations, weights, errors | refuted (about the identity the answer is half a turn off); Newton's method from above, the result as one step of inverse iteration, perturbation of the best attitude |
| C175 scale of the weights | all factors | refuted (doubled weights, half a turn off); partial: sums slightly below one |
| C176 sun in the barbecue roll | z component of the sun in the body frame; integral of `Spec.lit` over one turn | proved |
| C177 eclipses of circular orbits | `Spec.circle`, `Spec.Plane`; existence of a shadow iff `r abs(s.n) < R`; angle between shadowed places | proved |
| C178 spins left alone | `Spec.Alone` (rates change as `derivative` says), `Spec.Principal`; bounds from energy and momentum, explicit separatrix | proved |
| C179 detumbling over time | `Spec.Detumbling` (motions under part of the moment asked for), `Spec.turning`; along a fixed field nothing changes, across it and in a turning field exponential decay | refuted (fixed field); decay as partial |
| C180 unloading over time | `Spec.Unloading` (rest, moment of `desaturate`, wheels move as the dynamics say); excess momentum like the momentum in C179 | refuted (null motion of a pyramid); excess momentum dies out, speeds settle without null motion, as partials |
| C181 gravity gradient libration | `Spec.Librating` (circular orbit, wheels at rest, gravity torque only), `Spec.Kepler`; integral of the motion relative to the orbit, `C181_libration`; separatrix motion, `C181_sideways` | proved |
| C182 keeping out | `Spec.Evading` (motion under `allowable_zone` plus bounded accelerations, fixed objects), `Spec.Guided` (the closed loop of `tracking` and the dynamics), `Spec.Allowed` (all margins positive, in angles by `C182_margin`); barrier of logarithms and a Grönwall estimate up to a first contact | refuted (the earth is looked for in inertial coordinates); for the law itself, and for the sun in the closed loop, as `C182_law` and `C182_sun_partial` |
| C183 resting in front of the sun | `Spec.Slewing` (undisturbed closed loop for all times); balance of attraction and repulsion by the intermediate value theorem, for every half-angle up to 60 degrees, gain and plane through the boresight (`C183_stuck`) | refuted (the test `z is np.zeros(3)` for the random push is never true); all places of rest for one instrument, as partial |
| C184 greatest wheel speed | `Spec.Run` (whole loop, C160); the check brings a wheel that is slightly too fast back (`checkTorque_back`), recoil of the satellite bounded by the torques, invariant over all intervals | refuted for the gain of the satellite (the prediction leaves out that the satellite turns too); the limit plus what the recoil adds in one interval holds at all times, as partial |
| C185 zero currents | IEEE values (`Model/Ieee.lean`: signed zeros, infinities, nan, any rounding); the sign bits of the field decide | refuted (`max_m / -0.0` is minus infinity, and zero times infinity is nan); exactly the fields of one sign give zero currents, every other field gives nan; without negative zeros the floats compute what `Str.distribute` says (`C185_refines_partial`), as partial |
| C186 error curve | lists over task times in nanoseconds (`Model/SimPlot.lean`); the stretched list has the error of update `k / 10` at place `k` | refuted (any ratio of periods but ten raises in matplotlib); exactly when a curve is drawn, and right for the ratio ten and stop times within one step of a run of the flight software, as partial |
| C187 torque envelope | `Spec.Producible`: torques of single wheels within the limit with that sum; projection on the row space of the axes | refuted (on every pyramid some torques lose a third); at least two thirds on every pyramid, at least one over the square root of the number of wheels in general, and exactly which torques are delivered in full, as partial |
| C188 turns from rest | `Spec.AtRest`, `Spec.offBy`: attitude turned by an angle about an axis away from the command; runs of C140 | every run from rest: one axis, no switch, angle within the first one; angle above an exponential for damping of at least 1; every motion passes the command for damping below 1; motions for ever exist |
| C189 Kepler's third law | `Spec.Orbit` of C141; `Spec.halfAxis` from the energy, `Spec.period` | uniqueness of motions along differentiable fields; Lagrange coefficients with Kepler's equation solved for all times |
| C190 energy in the zonal field | `Spec.zonalEnergy`: kinetic energy minus the geopotential of C49 | refuted (by the signs of C49); the power is below a ten-thousandth of weight times speed, and the change is undone after a right-angled crossing of a plane through the axis, as partial |
| C191 turning planes of orbits | `Spec.NodeAt`: right ascension of the node from the angular momentum; `Spec.nodeRate`, `Spec.tilted` | derivative of the node along motions; integrals over a turn |
| C192 existence and uniqueness of motions | `Spec.Motion` (C153), `Spec.perigee` from energy and eccentricity, `Spec.reversed` | motions that stay in a compact set go on (`Proofs/Flow.lean`); growth of the angular momentum; uniqueness along C¹ fields |
| C193 bad readings and wheels | IEEE values (`Model/IeeeFsw.lean`); `Spec.NoAttitude`, `Spec.NoRate` | refuted: `max(-T, min(nan, T))` is `-T`, so every wheel gets its full torque backwards (`C193_full_torque_partial`) and is driven past every speed (`C193_overspeed_partial`); every command is a number within the limit; on numbers the floats compute what `Fsw.updateState` says (`C193_refines_partial`), as partial |
| C194 bad readings and magnetorquers | IEEE values (`Model/IeeeMag.lean`); `Spec.NoField`, `Spec.BadCall` | refuted for bang-bang: the triggers keep their memory and the full moment goes on; otherwise all currents are nan; nan in the first component takes the limit off the others, as partial |
| C195 bad readings and the attitude filter | IEEE values (`Model/IeeeFilter.lean`); `Spec.FilterCall`, `Spec.RightInverse` | refuted: one nan reading makes the attitude nan through every later sequence of calls, the bias from the next measurement on; zeros pass as agreement and shrink the covariance, as partial; the model refines to C81's filter on numbers |
| C196 sidereal time of the almanac | `Spec.almanac` (polynomial at the instant), `Spec.SameAngle` | proved for `Clock` up to 1e-9 rad; refuted for `JClock`: it drops the fraction of the second, so its angle is up to 7.3e-5 rad behind (as partial: exact up to 1e-9 rad with the fraction added back) |
| C197 attitude motions exist from every state | `Spec.Alone`, `Spec.Librating`, `Spec.DetumblingIn` | proved: existence for all times by a bound on the momentum on every bounded time, uniqueness by local Lipschitz; with C179 every tumble decays |
| C198 margins with a delay | `Model/Delay.lean` (Padé quotient of the `control` package); `Spec.GainMargin`: values of the loop that are negative | crossover and phase proved (error below 2e-6); gain margin refuted for every design: it always exceeds the limit of the sampled loop, by less than 1.59 (as partial: multiples up to 0.63 of it are stable) |
| C199 uncertainty per call | runs of `propagate`; limits over the number of calls | refuted for every filter: every velocity variance tends to infinity as the same time is divided into more calls, and calls of duration zero add the noise too; as partial: the angular momentum and energy of the estimate do settle |
| C200 barbecue roll in a turning field | all motions from all starts, with existence and uniqueness; limits by an invariance principle (compactness, continuous dependence) | refuted: for every symmetric satellite and every field that turns about the pole of the ecliptic slower than 0.02932 b / a there is a motion that cones with the field for ever, untouched; a second resonance at twice the rate of the field; as partial: apart from these two, every start whose error is at most that of rest, other than exactly upside down at rest, reaches the wanted spin, and from every other start the error tends to zero or to that of rest |
| C201 detumbling with held commands | all runs of samples, with existence and uniqueness of the next sample; contraction per sample; the pendulum in closed form (quadrature, inverse function) | refuted: for every interval up to 400 s and every satellite with diagonal inertia there is a rate of about one turn per interval at which the spin is the same at every sample for ever, and between half a turn and a turn per interval every step makes it faster; as partial: when rate times interval is below two radians the momentum across the field shrinks by a fixed factor per sample, and every bound on the momentum has an interval that is short enough |
| C202 estimates handed out | heap of arrays (`Model/Alias.lean`), any number of filters, any interleaving; invariant (references exist, no two filters share a bias array), refinement to the filter of values | refuted: `self.b += self.db` writes into the array that `output` returned, which at every later time shows the bias of that time (`C202_bias`); quaternions keep their numbers, biases until the next measurement of that filter, as partial |
| C203 filter made from the simulator's state | state objects as references (`Model/Alias.lean`, on top of `Model/Shared.lean`) | refuted: before the first step of the simulator `update` moves the simulated satellite to the estimate (`C203_moved`); once the simulator has taken a step nothing done with the filter changes it, as partial |
| C204 tracking with held commands | all runs of samples, with existence of a run from every state; a strict Lyapunov function for the interval, constants chosen before the interval; closed form of the runs that stall | refuted: for every satellite with symmetric inertia and every interval with 2 pi damping / (h freq) at most 0.9 there is a run that turns about a principal axis once per interval for ever and is commanded nothing (`C204_too_far`); as partial: for every bound on the initial error and momentum there is an interval below which all runs converge exponentially, at a rate that does not depend on the interval |
| C205 tracking with limited wheels | all runs (motion of attitude, rate and wheel speeds, switches), with existence near the command; a barrier for the kinetic energy, a twin controller without the limit; a closed-form run in which the limit binds | proved: energy bounded for every limit (`C205_bounded`), exponential slowing for every limit above zero with a rate chosen before the run (`C205_slows`), convergence from an explicit region (`C205_near`, `C205_region`, `C205_exists`), a lower bound of the time it takes (`C205_takes_time`). Convergence from every state is not claimed |
| C206 the satellite of the examples | `make_satellite` of helper.py and of template_objects.py, with their numbers; all torques, all runs of tracking | partial: the claim fails (`C206_fails`: template_objects raises UnboundLocalError, as its list of sensors hides the module; `C206_current_fails`: the examples command 300000 A to a torquer allowed 0.2887 A, and the simulation takes it). Holds: the satellite with its inertia (`C206_builds_partial`), exactly which size of torque is always produced (`C206_torque_partial`), pointing from rest from every attitude up to the natural frequency 0.06 (`C206_points_partial`) and with the manager's 0.1 up to 102 degrees (`C206_manager_partial`) |
| C207 turns from rest with limited wheels | all runs (attitude, rate, wheel speeds, switches) from rest without angular momentum, existence for any length of time; a Lyapunov function for a saturated law about one axis with a cross term that saturates too | proved: the turn stays on its axis, does not swing past its start, and converges exponentially with constants chosen before command and angle (`C207_turn`); any memory of the trigger (`C207_rest`); the runs exist (`C207_exists`); the satellite of the examples with any gains (`C207_examples`) |
| C208 the position filter with a fix each second | runs of any number of seconds from a new filter, true motion in continuous time; a Riccati sub-solution, a norm in standard deviations with a dual description, induction | proved: no exception, the initial error shrinks by 0.9975 each second, and what is left is proportional to the errors of fixes and of the motion's model (`C208_tracks`) |
| C209 a position filter is as good as its fixes | runs with exact fixes and an exact start on circular orbits; a Riccati super-solution that the covariance falls to, a push that prevails over the correction | refuted: on circular orbits of 6500 to 6680 km and of 6880 to 8300 km radius the error is more than three standard deviations of a fix at some second of any twenty after 400 s (`C209_circular`, `C209_bias_fails`), since the filter's `a = 1.28e-6` is the gravity gradient of one orbit; within half a kilometre of 6778.5 km it holds for ever (`C209_near_partial`) |
| C210 the tracking law does not rely on the exact inertia | runs of the closed loop of a controller and of a satellite whose inertia `J` differs from the one assumed; a strict Lyapunov function whose cross term is small enough for the switches to lower it, a barrier argument for the quadratic gyroscopic remainder | proved: a tolerance for every bound of the rate, with disturbances (`C210_converges`), one for all rates (`C210_uniform`); for every positive definite inertia the energy goes down to a bounded floor (`C210_bounded`); runs exist for all times (`C210_exists`). The size of the tolerance is not computed |
| C211 tracking tolerates readings that are not exact | runs of the closed loop in which attitude, rate and wheel speeds are read with errors of at most `η`, unrelated from instant to instant; the errors as an acceleration that is bounded plus one in proportion to the rate; the hysteresis with a margin on both sides | proved: decay to a floor in proportion to errors and torques, finitely many switches (`C211_converges`); runs exist for constant errors of the gyro (`C211_exists`); such an error leaves an offset of `gamma / alpha` times its size (`C211_floor`). The wheels are assumed to carry a bounded momentum; readings are near the quaternion itself, not its negative |
| C212 tracking converges in simulations by the integrator | runs in which the controller is asked in the state of the integrator and `update` is then called `m` times; one step as a constant acceleration up to errors in proportion to step times error; a quadratic Lyapunov function that is strict also across held commands; `(1 + wheel momentum) exp (M sqrt V)` as a bound of the wheels | proved: exponential decay to zero, bounded wheels, no switches after some time (`C212_converges`); a floor of order `δ ^ 2` in the squared error under torques (`C212_disturbed`), there with a bound on the momentum of the wheels as a hypothesis; runs exist (`C212_exists`) |
| C213 the wheels can hold the satellite against its environment | closed forms of the torques on the walls (the reflected part of the sunlight drops out); the density at the lowest height, the pressure of the sun within a million km, gravity gradient and dipole at the least distance | proved: the bound (`C213_bound`), the link to simulations (`C213_field`), 0.25 uN m on the satellite of `helper.make_satellite` (`C213_example`), accelerations that keep it at rest (`C213_hold`). What is bounded is what the code computes: its wall torques have the projected area twice (C44) |
| C214 near the command, tracking works whatever the inertia | a quadratic function with the matrix J inv(I) J, in which the linearised loop is a damped oscillator for every pair I, J; what is left over is of higher order | proved (`C214_converges`), with runs for every duration (`C214_exists`). Satellite without limits of the wheels and with exact readings, as in C210 |
| C215 bad fixes and the position filter | IEEE values (`Model/IeeePos.lean`); `Spec.PosCall`, `Spec.NoNumber`, `Spec.RightInverse6` | refuted: one component that is nan or infinite makes all six components of the estimate nan or infinite through every later sequence of calls, as partial; the model refines to C85's filter on numbers |
| C216 errors of TRIAD | distance of the images of all vectors under the returned and the true attitude | proved: bound 6.5 eps / sine (`C216_bound`), errors of eps / sine for every attitude (`C216_sharp`), what the second measurement contributes (`C216_second`) |
| C217 staring | body direction of the target, rate of the line of sight, runs of the closed loop of `point_and_stare` | partial: false for a target exactly behind the boresight, where nothing ever moves (`C217_fails`), and, when an earlier manoeuvre left the switch at -1 and the target is further than 145 degrees away, the boresight is driven away from the target and the switch never turns back (`C217_never`). With the switch at +1 the error decays from every start with less energy than that of the target behind (`C217_converges_partial`), to zero when the direction of the target is fixed (`C217_limit_partial`), the switch turns to +1 wherever the target is within 145 degrees (`C217_turns_round_partial`); how fast the line of sight turns (`C217_sight`) |
| C218 aim under position errors | direction to the true target against the direction the commanded attitude points to, rate of the true line of sight | proved: the aim is off by at most twice the error of the position over the sum of the distances (`C218_aim`), with equality at equal distances (`C218_sharp`); the commanded rate is off by the error of the velocity over the distance plus the speed times the error of the position over the product of the distances (`C218_rate`) |
| C219 fading errors | chains of the runs of C211, each with its own bounds on errors and disturbances; size of rate and distance from the command | proved: if the errors stay within the tolerance and tend to zero, so does the error of tracking, and after some time the sign does not switch any more (`C219_vanish`); such chains exist from every state (`C219_exists`) |
| C220 equatorial angles with rounding | `Model/FloatEquatorial.lean`: any rounding to nearest, any arctangent within one unit in the last place | partial: right ascension or roll can be 360 itself (`C220_fails`, `C220_turn`), so only the closed range holds (`C220_range_partial`). A quaternion from `normalize` never raises and its angles are right up to 1e-14 (`C220_accepts`); without the tolerance the root of a negative number would be taken (`C220_tolerance`) |
| C221 sign of the quaternion | `tracking` with either sign of the attitude read, of the command and of the memory; motions in which the signs change at will | partial: in the band of the hysteresis the feedback is reversed (`C221_fails`, `C221_reversed`). Outside, the law is the same, with avoidance too (`C221_law_partial`); a motion that starts with little enough energy never gets into the band, is a motion of the exact loop (`C221_refines_partial`) and converges exponentially (`C221_converges_partial`) |
| C222 aim from the filter | C208 and C218 put together: `posRun`, then `pointReference` of its output, against the true line of sight | proved (`C222_aim`), with numbers for a target 400 km below an orbit |
| C223 runs with changing signs | the closed loop in pieces, with another sign of the attitude read and of the command in each; the memory of the switch as the controller keeps it | partial: the claim is refuted (`C223_fails`): a satellite that turns slowly half a turn away from the command can be kept inside the hysteresis for any time, by a change of sign at each passage (`C223_away`). Runs that start with little enough energy are runs of the exact loop (`C223_refines_partial`) and settle in a time that does not depend on the signs (`C223_settles_partial`); there are such runs (`C223_exists`) |
| C224 `Reset` | `FswModule.reset` and `updateState` in any order; the messages that are sent afterwards | partial: refuted (`C224_reset_fails`), the second target stays. All that a module remembers is its target (`C224_memory_partial`); the target after any calls is computed by a small specification (`C224_reset_partial`), and until the satellite has been at rest in the first target attitude the claim holds (`C224_fresh_partial`) |
| C225 noise parameters are refused early | `Suite.measurementPy`, `Gyro.initPy`, `Gyro.propagatePy` (`Model/SensorChecked.lean`): as the sensor model, with the `ValueError` of numpy's `normal` where it is called | partial: refuted (`C225_sensor_made_fails`), only `init_bias` is checked in a constructor (`C225_gyro_partial`). The other standard deviations raise at the first noisy reading or the first `propagate` and are harmless without noise (`C225_noise_free_partial`); with none negative the checked and the unchecked sensors agree (`C225_noisy_partial`); a negative `arw_std_dev` is never noticed (`C225_arw_partial`) |

## 6. Properties the code does not have

Generated by `tools/gen_design.py` from the comments of the theorems.

<!-- begin generated -->
* **C12** (equatorial angles round-trip). The stated round trip is false of the code (C12_round_trip_fails gives a witness); the partial theorem covers the attitudes for which it holds.
* **C18** (geodetic conversions are mutually inverse). The stated round trip is false of the code: angles go in as radians and come out as degrees (C18_round_trip_fails), and the two functions use different ellipsoids (C18_pole_height_error). `C18_close_partial`: with the angles converted the round trip is right within 5e-4 degrees and 21 m everywhere; `C18_round_trip_partial`: on the equator it is exact.
* **C20** (triad_algorithm reports degenerate input by returning False). The stated property is false: triad_algorithm never returns False (C20_never_false, C20_degenerate_not_reported). The partial theorem says degenerate input raises a non-finite value, not an attitude.
* **C24** (a Clock tracks elapsed time). `C24_tracks_fails`: The full claim is false; a 7-second tick from 12:00:58 shows 12:00:65. `C24_tracks_partial`: C24 (partial): with a fixed tick that divides the minute (and is at least 10 microseconds) and a start on the grid, every reading is proper and exact, for any number of ticks. Missing: other tick lengths, for which the claim is false.
* **C25** (Clock.is_after compares instants). `C25_is_after_fails`: The full claim is false: at midnight on 1 February 2024, 31 January 2024 counts as still to come. `C25_is_after_sound_partial`: C25 (partial): `True` can be trusted: every field at or past the target implies the instant is. Missing: the converse, which is false. `C25_same_minute_partial`: C25 (partial): within one minute of the calendar the answer is exact both ways.
* **C26** (Clock.is_minutes_away is a look-ahead window). `C26_window_fails`: The full claim is false. `C26_same_hour_sound_partial`: C26 (partial): on the same calendar hour, with no borrow from the hour, `True` is right. Missing: other hours (false, `C26_past_reported`) and the converse (false, `C26_future_missed`). `C26_same_hour_exact_partial`: C26 (partial): for targets on a whole minute, in the same hour with no borrow, the window is exact.
* **C30** (the absolute time counter counts elapsed seconds on every clock class). `C30_absolute_fails`: The full claim is false, because of `JClock`. `C30_absolute_partial`: C30 (partial): for `Clock` the counter is the total. Missing: `JClock`, for which it is false.
* **C32** (the sidereal angle advances with time). `C32_gmst_fails`: The full claim is false: the fraction of the second does not rotate the Earth, so half a second after midnight on 1 January 2000 the sidereal time has moved by under two milliseconds. `C32_gmst_partial`: C32 (partial): between two instants of one day that differ by a whole number of seconds the sidereal time advances in exact proportion. Missing: fractions of a second, for which it is false.
* **C35** (star tracker measurements are attitudes). `C35_star_tracker_fails`: Noise is added to the vector part and the sum is not normalised: not a unit quaternion. `C35_star_tracker_partial`: What holds: without noise the reading is the unit attitude; with noise the scalar part is exact, the vector part is off by the noise `w`, and the reading is a unit quaternion only in the exceptional case `2 v·w + w·w = 0`. Missing: a normalisation.
* **C38** (distribute never exceeds a torquer's maximum and keeps the direction of the moment). `C38_distribute_fails`: `C38` does not hold: a command of a hundredth of the maximum on the negative axis is answered with the full maximum in the opposite direction. `C38_distribute_partial`: `C38` for commands without a negative component.
* **C44** (aerodynamic and solar torque of a wall is its lever arm times its force). `C44_torque_fails`: The code multiplies the centroid by the projected area, which the force already contains, so the claim is false: here the torque of a 10 cm by 20 cm face is a factor 100 too small. `C44_torque_partial`: What does hold: the torque is the claimed one times the projected area (in square metres), for both kinds of force. Missing: the factor should be one.
* **C46** (relative velocity vanishes for an object moving with the atmosphere). `C46_relative_velocity_fails`: The sign of the second component is wrong: an object at rest relative to the Earth on the x axis is given a relative velocity. `C46_relative_velocity_partial`: What holds: first and third components are right, the second is off by `2 Ω x`; so the claim is true exactly on the plane `x = 0`. Missing: the sign in the second component.
* **C47** (atmospheric density decreases with height). `C47_density_fails`: So the full claim is false: at the base of the top band the density is less than half the table's. `C47_density_partial`: What holds: the shape, and the tabulated base density for the four lower bands. Missing: the base height of the fifth.
* **C49** (high-fidelity gravity is the gradient of the zonal potential). `C49_gradient_fails`: In particular it is not the gradient of the zonal potential. `C49_gradient_partial`: What holds: the code's field is the gradient of the zonal potential plus an error along the projection of the position on the equatorial plane, of relative size `signError` (from the signs of the J3 and J4 terms in the first two components). In particular the third component is right everywhere and the J2 terms are right. Missing: the two signs.
* **C53** (the current state is always one of the nine states). `C53_member_fails`: False for arbitrary arguments: from BBQ the number 7 is accepted and stored. `C53_member_partial`: C53 (partial): with members of `State` as arguments, after any history the current state is a member. Missing: other arguments. `C53_only_seven_partial`: C53 (partial): the only improper argument that is ever stored is the number 7, and only from BBQ.
* **C54** (change_state follows the documented transition table). `C54_table_fails`: False: from BBQ a request for POINT is refused and fails the machine. `C54_table_partial`: C54 (partial): every other pair of states follows the table. Missing: BBQ to POINT.
* **C56** (automatic transitions do not fail the machine). `C56_transition_fails`: The full claim is false. `C56_transition_partial`: C56 (partial): the other states complete (SAFE and POINT when a mission is set and the clock answers), and no automatic transition ever fails the machine: the move made is the one decided, and the state is unchanged when it raises. Missing: DETUMBLE, BBQ, UNSAFE and an unset mission.
* **C58** (the lock is always released). `C58_lock_fails`: False: after the number 7 has been stored the next call raises with the lock held, and every call after that blocks for ever. `C58_threads_partial`: `C58` for threads: when every call passes a member of `State`, the lock is never held by nobody: in every reachable configuration either the lock is free, or the thread that holds it can take its next step. `C58_lock_partial`: C58 (partial): with proper arguments the lock is free after every history. Missing: other arguments.
* **C59** (a transition decision is applied to the state it was computed from). `C59_decision_fails`: `C59` does not hold: the control loop reads SAFE and decides to point; before it takes the lock another thread commands SPINDOWN. `C59_decision_partial`: What holds: if no call is in progress at the read and nobody takes the lock between the read and `change_state`, the decision is applied to the state it was computed from.
* **C60** (commands match the commanded mode). `C60_stale_fails`: Spin down, then go to SAFE; the wheels keep being accelerated. `C60_modes_partial`: Everything about the modes that are handled, whether or not the call raises an exception. Missing: in UNSAFE, SAFE and MANUAL the commands stay as they were (`C60_stale_fails`).
* **C62** (the manager interfaces can be constructed). `C62_construct_fails`: C62 fails. `C62_controllers_partial`: What remains of the constructor once there is a filter with a model: it succeeds exactly for a model with a clock, and then no actuator is commanded. Missing: no such filter can be made (`C62_never`).
* **C63** (the hysteretic sign). `C63_wide_fails`: It is false: a half-width of exactly 1 and an input of -1. `C63_wide_partial`: What holds: it is constant for inputs strictly inside of the half-width, so for half-widths above 1. Missing: the half-width 1 itself with inputs +1 and -1.
* **C66** (detumbling removes angular momentum). `C66_energy_fails`: It is false for a body with different moments of inertia. `C66_energy_partial`: What holds of it: the energy does not increase when the field is along a principal axis of the inertia, so for every field when the three moments are equal. Missing: other fields.
* **C68** (acquire_target points the boresight at the target). `C68_acquire_fails`: It is false: a target right behind the boresight gives the quaternion zero. `C68_acquire_partial`: For every target that is not right behind the boresight, the attitude turned by `acquire_target`'s rotation is a unit quaternion and the boresight points at the target. Missing: the target exactly behind.
* **C70** (tracking works with the shipped environments). C70_fails: The constructor already raises, because the model has no clock of its own and no sun vector. C70_partial: What holds: with a clock and a sun vector supplied, and instruments with bounds for both objects, `tracking` returns a torque at every state. Missing: the library supplies neither.
* **C76** (the simulator uses the step size it is given). `C76_step_fails`: It is false: the argument is replaced by 0.05, and asking for one step of 0.02 s does nothing. `C76_step_partial`: What holds: whatever step was given, `propagate` of `k` times 0.05 s advances the clock by `k` times 0.05 s and returns the noise-free measurement of the new state. Missing: the step given by the caller.
* **C79** (solar torque follows the body attitude). `C79_attitude_fails`: The full claim is false, at every date. `C79_attitude_partial`: What holds: in shadow force and torque are zero, and the claim is true at the identity attitude, where force and torque are those of the walls lit from the sun's direction. Missing: the sun vector should be carried to the body frame first.
* **C82** (attitude filter outputs unit quaternions). `C82_unit_fails`: One propagation makes the estimate longer than 1. `C82_unit_partial`: After a measurement the estimate is a unit quaternion (whatever propagation did to its length), as long as no single propagation exceeded half a turn. Missing: the estimate is not a unit quaternion after a propagation (`C82_unit_fails`, `C82_length`).
* **C83** (attitude filter treats q and -q alike). `C83_sign_fails`: The readings `r` and `-r` turn the estimate in opposite directions. `C83_own_partial`: In every state reached by a history, a reading of the estimate itself, with either sign, leaves the bias unchanged and the estimate too, up to normalisation. Missing: for other readings the sign matters (`C83_sign_fails`).
* **C87** (position filter linearises gravity). `C87_jacobian_fails`: C87 fails at every non-zero position, for any non-zero mass. `C87_jacobian_partial`: The block is the Jacobian with the opposite sign. Missing: the sign (`C87_jacobian_fails`).
* **C88** (flight software torque limits). `C88_sign_fails`: C88 fails for a wheel that would be driven past the limit on the other side: it is sped up instead. `C88_sign_partial`: C88 holds for a wheel that is at rest or already turning the way it is asked to, and for one that the request would not take past the limit.
* **C89** (flight software takes the short way round). `C89_short_way_fails`: With a proportional gain the negative of an error gives the opposite torque, which turns the satellite the long way round. `C89_torque_partial`: C89 holds for an error exactly if the gain ignores its vector part.
* **C93** (product moments are left out only of a reduced model). `C93_products_fails`: It is false: line 543 adds them when `reduced` is true. `C93_products_partial`: What holds: the flag makes no difference when the products are zero. Missing: the meaning of the flag, which is the opposite of the documented one (see also `C42_with_products`). `C93_exact_partial`: Exactly which satellites have the inertia that the claim says, for either value of the flag: those that are told that the model is reduced, and those without products.
* **C94** (detumbling currents brake the tumbling). `C94_braking_fails`: The claim is false: a satellite turning about its first axis in a field along the third. `C94_braking_partial`: What holds of it: it brakes when no component of the moment asked for is negative. Missing: all other states, where it is reversed (`C94_reversed`).
* **C95** (bang-bang torquing rests at its reference). `C95_rest_fails`: With bang-bang control and no error the trigger keeps its memory, so that the currents are not zero. `C95_rest_partial`: What holds: without bang-bang the currents are zero. Missing: bang-bang control.
* **C96** (keep-out objects are given in body coordinates). `C96_frame_fails`: The direction of the earth is left in inertial coordinates. `C96_frame_partial`: What holds: the sun is in body coordinates, and the second object is the direction of the earth turned by the inverse attitude, so it is right only for attitudes that leave it fixed. Missing: all other attitudes.
* **C97** (staring commands the rate of the line of sight). `C97_rate_fails`: It is false: a camera along the first axis, a target along the second. `C97_rate_partial`: What holds: it is right once the boresight is on the target (no attitude error), and whenever the attitude error leaves the rate unchanged. Missing: all other attitudes.
* **C98** (the barbecue reference rolls with the clock). `C98_roll_fails`: `absolute` of a `JClock` never moves, so that after a tick of one second the reference is the same. `C98_roll_partial`: What holds: as a function of `absolute` the reference turns at the commanded rate `bbq`, which is also the rate handed to `tracking`, and it keeps the body's z axis on the pole of the ecliptic. Missing: the clock's `absolute` never moves.
* **C102** (tracking follows moving references). `C102_moving_fails`: The claim is false: at rest in a reference that starts to turn. `C102_constant_rate_partial`: What holds of the claim: references with constant rate. Missing: references with angular acceleration.
* **C103** (the avoidance law follows its potential). `C103_gradient_fails`: The claim is false: turning across the direction of the sun. `C103_gradient_partial`: What holds: the law is an attractive term along the attitude error plus a repulsive term; the potential changes by minus the work of the attractive term and minus twice the work of the repulsive term. Missing: the repulsive term is half of what the claim needs.
* **C104** (mission data means the same to sender and controller). `C104_order_fails`: The target is below the satellite, the instrument looks along the z axis. `C104_swapped_partial`: With boresight and target the other way round, the reference attitude is a unit quaternion that has the boresight on the target, if the target is not exactly behind the boresight. Missing: the documented order (`C104_order_fails`). `C104_entries_partial`: What the manager does with the entries of the mission data: the first is handed to the controller as boresight, the second as target, and the controller's answer is stored; with fewer than two entries POINT raises `IndexError`.
* **C105** (avoidance sets in continuously). `C105_onset_fails`: The claim is false: the barrier does not start from zero. `C105_onset_partial`: What holds: the law depends continuously on the directions of any number of objects, at all directions away from the edges of the regions. Missing: the edge where avoidance sets in.
* **C106** (attitude filter propagation follows the kinematics). `C106_kinematics_fails`: C106 fails for every estimate that is not the identity attitude, unless the step is a multiple of two full turns. `C106_deviation_partial`: Propagation is the exact solution plus `(1 - cos(|u| dt / 2))` times the vector part of the old estimate. Missing: that second term should not be there (`C106_kinematics_fails`). `C106_first_order_partial`: To first order in the step, propagation follows the kinematics `dq/dt = q ∘ [0, w - b] / 2`.
* **C107** (a star tracker reading moves the estimate by the Kalman gain). `C107_gain_fails`: The first reading moves the estimate by a quarter of the error, not by half. `C107_gain_partial`: For covariance `p` in attitude without correlations, a reading that is a rotation by `θ` about `e` away from the estimate turns the estimate about `e` by `2 arctan(p / (p + σ²) / 2 * sin(θ/2))`, which is `p / (p + σ²) * θ / 2` to first order, and leaves the bias alone. Missing: the optimal correction is twice as large (`C107_gain_fails`).
* **C108** (position filter's state object follows its estimate). `C108_stale_fails`: C108 fails. `C108_stale_partial`: `propagate` leaves the state object as it is, so that it still holds the estimate before the propagation. Missing: it is not brought up to date (`C108_stale_fails`). `C108_lag_partial`: After a measurement that raised no exception the state object holds what `output` returns, in its array and in its attributes; through any sequence of propagations it keeps holding the estimate made by that measurement. Missing: it does not follow the propagations (`C108_stale_fails`).
* **C109** (position filter uses one motion model). `C109_drag_fails`: C109 fails for every filter. `C109_drag_partial`: For the covariance the equations of motion are `x' = v`, `v' = J x + b v`, for the estimate `x' = v`, `v' = -a x - b v`: the position rows agree. Missing: drag has opposite signs (`C109_drag_fails`).
* **C110** (the older manager handles every mode). `C110_active_fails`: It fails in both active modes: DETUMBLE and POINT raise `TypeError` for every manager and all data, and leave the wheels' command as it was. `C110_claim_fails`: DETUMBLE with a well-formed mission raises `TypeError`. `C110_passive_partial`: The modes without control return; SLEEP and FAILED stop the actuators, all others (among them BBQ and SPINDOWN) keep the commands. Missing: the active modes.
* **C111** (filters are propagated by the durations asked for). `C111_lost_fails`: With steps of one second and calls of half a second, the filter is never propagated. `C111_steps_partial`: One call propagates the attitude filter by as many whole steps as fit into the duration and a millisecond, so by at most one millisecond too much and less than a step too little; the number of steps can be told from the filter. Missing: the remainder of each call is lost (`C111_lost_fails`).
* **C112** (propagating the filters succeeds). `C112_due_fails`: It never returns when a step of the position filter is due: `AttributeError` is raised after the first one, which stays done. `C112_claim_fails`: With a position step of one second, a call for one second does not return. `C112_attitude_partial`: While no step of the position filter is due, `propagate` returns, and changes nothing but the attitude filter. Missing: `C112_due_fails`.
* **C116** (rotation sequences mean what they document). `C116_documented_fails`: C116 fails as documented: for the order `zyx` the first angle is the one about z, and the turns are about fixed axes. `C116_fixed_partial`: What happens is that the angles belong to the axes in the order of the string, and that the turns are made one after the other about fixed axes.
* **C121** (the design model is that of the error the controller uses). `C121_design_fails`: For a turn through the identity the error has the opposite sign. `C121_rate_partial`: What it does is to change by minus half of the body rate, seen in the inertial frame.
* **C123** (the flight software turns towards its target). `C123_towards_fails`: A quarter turn from the target, at rest, the torque turns the satellite further away. `C123_away_partial`: At rest, and for every error of less than a full turn, the torque turns the satellite away from its target on the side on which it stands. `C123_long_way_partial`: A satellite that starts at rest, turned by `φ 0` about y from its target, and that follows the torque, never has a scalar part of the error above the initial one: it does not come closer to its target on the side on which it stands, and can only reach it the long way round.
* **C129** (max_A limits the magnetorquer). `C129_limit_fails`: The maximum current is not enforced. `C129_limit_partial`: What holds. A current within the maximum gives at most the maximum moment, if for the saturating rod the maximum current is on the rising side of its parabola.
* **C131** (one call of the manager takes in data, commands and propagates). `C131_returns_fails`: In SLEEP, a call for one second with a position step of one second raises `AttributeError`. `C131_returns_partial`: When no step of the position filter is due, `propagate` ends, and it ends with an estimate. Missing: `C131_returns_fails`.
* **C132** (the gyro bias is removed once). `C132_rate_fails`: The bias is subtracted twice, by `output` and by the filter. `C132_rate_partial`: The estimate is turned by the rate less twice the bias; so the claim holds for a filter whose bias is zero. Missing: `C132_rate_fails`.
* **C133** (a simulator's clock shows the time asked of that simulator). `C133_own_fails`: Of two simulators on one clock, the call of the first moves the clock of the second. `C133_own_partial`: It holds when no two simulators refer to the same clock. Missing: simulators that do (`C133_own_fails`).
* **C134** (a simulator leaves the state it was given as it was). `C134_initial_fails`: C134 fails, in every call that makes a step of at least a millisecond. `C134_claim_fails`: C134 fails. `C134_initial_partial`: Contents and attributes of the state object stay as they were, whether or not the call returns; its clock has advanced by the time that was simulated, so that the attributes are those of an earlier time. A state with another clock is left alone. Missing: the clock.
* **C135** (the error of a step is of the order of dt^5). `C135_order_fails`: A force that grows with the time has no effect in the first step. `C135_analytic_partial`: For fields that need not be linear, if the field depends on the contents of the state only, in an analytic way, the error of every number of the state after one step is of fifth order. `y` is the exact motion from the same start. Missing: fields that depend on the time (`C135_order_fails`). `C135_linear_partial`: For a linear field that does not depend on the time, the error of every entry of the state after one step is of fifth order. `y` is the exact solution from the same start. Missing: fields that depend on the time (`C135_order_fails`); nonlinear ones are in `C135_analytic_partial`.
* **C145** (what alignment of the barbecue roll means). `C145_aligned_fails`: It is false: a satellite at rest, with its `z` axis to the south pole of the ecliptic, is found aligned. `BBQ_transition` then goes on to the next mode. `C145_aligned_partial`: What holds: a satellite with a `check` below `e` and angular momentum `h` has its spin axis within `4 |hd|^2 - (2 |h| - e)^2` (a square of distance) of the wanted one, if `2 |h|` is at least `e`; and when `check` is zero, `h` is no larger than wanted, and is as large only in the wanted spin. Missing: slower satellites, which `check` does not distinguish from ones that spin as wanted.
* **C146** (the magnetic barbecue roll approaches the wanted spin). `C146_roll_fails`: It is false for a body whose moments of inertia across the spin axis differ: the wobble carries momentum away from the axis while the magnetic field is along the error and no torque is possible. `C146_roll_partial`: What holds: for a body that is symmetric about its `z` axis the error never grows, at any time, in any field and from every state; it stands still only when the field is along the sum of the two errors, so when `check` is zero or no magnetic torque acts on it. Missing: other bodies. `C146_run_partial`: Over a whole motion, in a field that changes: the error does not grow, so `check` stays below twice the root of the error at the start.
* **C148** (an unsafe satellite recovers by itself). `C148_recovery_fails`: The claim is false. `C148_recovery_partial`: What holds of automatic transitions, for every history of sensor values: they never lead to FAILED, they keep the mission and the lock, and the only moves are SAFE to POINT to UNSAFE, and SPINDOWN to SLEEP. Missing: the recovery from UNSAFE by DETUMBLE and BBQ to SAFE.
* **C151** (the margins of one axis). `C151_sampled_fails`: The claim fails for the gain of the satellite with the sampling time of the simulation: a large enough multiple of it makes the sampled loop unstable. `C151_sampled_partial`: The exact limit of the multiples: with `c` times the gain the sampled design model is stable if and only if `c * T * Kw_i / J_i` is below 2 for every axis. The reported infinite gain margin is true only of the continuous model (`C151_continuous`).
* **C152** (the transition methods decide as documented). `C152_handlers_fails`: The claim is false. `C152_handlers_partial`: For every state but UNSAFE the method called on a member decides as wanted, and `change_state` accepts the answer, except that of BBQ when the mission has started. In UNSAFE the method answers POINT when the mission has started. Missing: UNSAFE otherwise (`C152_unsafe`), and the acceptance of POINT in BBQ (`C152_bbq`).
* **C155** (gyro statistics do not depend on the step size). `C155_steps_fails`: With a mean of the drift other than zero the number of steps matters: the mean bias after one step of four seconds is `2 * rrw_mean`, after four steps of one second `4 * rrw_mean`. `C155_statistics_partial`: With `rrw_mean = 0` the statistics are those of white rate noise plus a bias driven by white noise, whatever the division of the elapsed time `T` into steps: the bias is normal with mean zero and variance `init_bias² + rrw² T`, the error of the integrated readings is normal with mean zero and variance `init_bias² T² + arw² T + rrw² T³ / 3`, their covariance is `init_bias² T + rrw² T² / 2`, and different axes are uncorrelated. Missing: a mean of the drift other than zero (`C155_steps_fails`).
* **C156** (the mean of the gyro noise). `C156_mean_fails`: A gyro made with `arw_mean = 1` reads the true rate on average. `C156_ignored_partial`: The mean given to the constructor has no effect: two gyros that differ in it only go through the same histories. Missing: any effect of it (`C156_mean_fails`); the other sensors have the mean they were given (`C154_sensor`).
* **C157** (the position filter's covariance is the covariance of its error). `C157_example_fails`: The receiver of the library's examples has standard deviations 30 m and 2 m/s; with it the error of the filter is larger than the filter reports. `C157_honest_partial`: If the covariance of the filter is that of its error, and the receiver's standard deviations are 10.0598 m and 0.52038 m/s, then after any number of readings with uncorrelated noise it still is: the error has mean zero, and the covariance the filter reports. Missing: receivers with other standard deviations (`C157_example_fails`).
* **C158** (the flight software settles on its target). `C158_settles_fails`: For the moments of inertia of the satellite and the first target of the simulation. `C158_upright_partial`: C158 holds where the body axes of the target are the inertial axes, for every inertia: with the quaternion of the attitude that has a negative scalar part, small errors die out. Missing: other targets. `C158_trace_partial`: For every inertia and every gain, if the trace of `(kq R)⁻¹ kw` is below three quarters of the sampling time (`R` has the body axes of the target as columns), small errors grow; and with the other quaternion of the attitude, if it is above minus this. So they always grow with at least one of the two quaternions. `C158_quarter_partial`: About a target turned by a quarter turn about the body axis `y`, small errors grow for every satellite with principal moments of inertia `d'`, every gain of `get_gain_matrix` for principal moments of inertia `d` (the wheels make a difference), and both quaternions of the attitude. `C158_half_partial`: About a target turned by half a turn about the body axis `y`, the same. `C158_shipped_partial`: About both targets of the simulation (90 and 180 degrees), small errors grow: for every satellite with principal moments of inertia, every gain of `get_gain_matrix`, every sampling time and both quaternions. `C158_round_partial`: C158, the exact criterion for a satellite that is the same about all axes: small errors about the target die out exactly if the cosine `C` of the angle between body axes and inertial axes is large enough for the gains. `C158_turned_partial`: With the same moment of inertia about all axes, small errors grow about every target that is turned by a right angle or more from the inertial axes, whatever the gain, the sampling time and the axis.
* **C160** (the true loop near the target). `C160_steady_fails`: For the moments of inertia of the satellite and its wheels, and the first target of the simulation. `C160_shipped_partial`: Near both targets of the simulation the true loop is repelled by the target: for every satellite with principal moments of inertia, every gain of `get_gain_matrix`, every sampling time, every wheel inertia, and both quaternions. `C160_upright_partial`: C160 holds where the body axes of the target are the inertial axes: with the quaternion of the attitude that has a negative scalar part, the true loop stays near the target and goes there, if the damping is small enough for the moments of inertia that the wheels leave. Missing: other targets.
* **C162** (the process noise of the attitude filter is that of the gyro). `C162_noise_fails`: The covariance of angle and drift has the wrong sign. `C162_noise_partial`: C162, what holds: the variances of the bias agree, those of the angles agree up to the constant `0.3333333` for a third, and the covariance of the two has the opposite sign in its drift term: the predicted one is larger by `driftVar * T²`. Missing: `C162_noise_fails`.
* **C163** (the predicted covariance does not depend on the steps). `C163_steps_fails`: Two steps of one second predict another covariance of angle and bias than one of two seconds. `C163_steps_partial`: C163, what holds: after `n` steps of length `dt`, `T = n dt`, the predicted covariance is the exact one plus errors that depend on the length of the steps: the variance of the angles is too small by `driftVar * dt * T * (T - dt)`, apart from the constant `0.3333333`, and the covariance of angle and bias too large by `driftVar * dt * T`; both vanish as the steps become short. Missing: `C163_steps_fails`.
* **C164** (the uncertainty of the attitude filter settles). `C164_steady_fails`: C164 fails for a satellite that turns once per second and is seen once per second. `C164_settles_partial`: C164, what holds: unless the satellite turns by whole turns between the readings (no rotation at all is fine), the covariance of the filter approaches one positive definite limit, whatever it was at first and whatever is read. Missing: whole turns (`C164_blind`).
* **C165** (the flight software answers every call). `C165_returns_fails`: A new module that is called before the star tracker has written anything. `C165_print_fails`: C165 fails also with all messages: a start in the future with `output_states` switched on. `C165_returns_partial`: C165, what holds: a call returns exactly if the star tracker has been heard, the gyro has been heard or is not needed (before the start of the controller, off the target), and after the start the wheels have been heard; before the start it must not be asked to print. Otherwise it raises `UnboundLocalError`. Missing: `C165_returns_fails`.
* **C166** (exact readings lead the attitude filter to the truth). `C166_converges_fails`: C166 fails for a satellite that makes half a turn between the readings: the filter starts from the truth and does not stay there. `C166_turning_fails`: C166 for every satellite that turns, unless the angle between two readings is a multiple of a full turn: exact readings never lead the filter to the attitude and the bias, wherever it starts. The predicted attitude is not the one the satellite has turned to (C106), so a filter that is right now is wrong at the next reading. `C166_rest_partial`: C166, what holds: the filter of a satellite at rest finds the attitude and the bias, and its covariance settles. Missing: a satellite that turns (`C166_converges_fails`, `C166_turning_fails`).
* **C167** (a normalised vector has length one in floating point). `C167_assertion_fails`: The claim is false. `C167_norm_partial`: What the computed norm is, up to nine roundings.
* **C168** (saturation keeps the limit in floating point). `C168_limit_fails`: The claim is false. `C168_limit_partial`: C168 (partial): the limit is kept up to the next float, that is up to a factor `1 + 2 ^ -52`, and each component is the one of exact arithmetic up to `3 / 2 ^ 53` of its size.
* **C169** (the clock keeps time in floating point). `C169_absolute_fails`: The claim is false: seven ticks of 0.45 seconds make 3.1500000000000004. `C169_tracks_partial`: C169 (partial): with a step of `60 / k` seconds for a whole `k` up to 5.9 million, rounded to a float, and a start on the grid up to rounding, the clock shows the right time within 0.1 microseconds after any number of ticks: rounding errors neither pile up nor make it miss a minute. `C169_absolute_partial`: C169 (partial): `absolute` is the total up to one rounding per tick.
* **C170** (Julian dates order the clocks). `C170_strict_fails`: The claim is false. `C170_strict_partial`: C170 (partial): clocks at least 43 microseconds apart have different dates.
* **C171** (rotation sequences are accepted in floating point). `C171_accept_fails`: The claim is false: 90 degrees about x, then 135 degrees about z, is refused. `C171_norm_partial`: What the function computes for any angles is a unit quaternion up to rounding, and the norm that the assertion compares with 1 is off by at most `9 / 2 ^ 53`. Missing for the claim: an exact 1.
* **C172** (integrate counts its steps in floating point). `C172_steps_fails`: The claim is false. `C172_steps_partial`: C172 (partial): with a step of at least 2 milliseconds and a duration of `k` steps give or take half a millisecond, `integrate` makes exactly `k` updates as long as `(k + 1) ^ 2 * dt` stays below `0.0002 * 2 ^ 53`. `C172_simulator_partial`: C172 (partial), for the step 0.05 s that the simulator always uses: right for six million steps, 83 hours.
* **C174** (noisy observations lead flae to the best attitude). `C174_near_fails`: Two sensors that are off by 0.2 rad in opposite directions, about the reference attitude. The answer is half a turn off. `C174_near_partial`: C174, what holds: whatever `flae` returns is near the best attitude `u`, to `5e-9 / d ^ 2` divided by the last component of `u`. Missing: attitudes without a last component, like the identity (`C174_near_fails`).
* **C175** (only the ratios of the weights matter to flae). `C175_scale_fails`: Doubling both weights turns the answer by half a turn. `C175_scale_partial`: C175, what holds: with exact observations and weights that add up to slightly less than one, `flae` returns the attitude, up to the error of `C174_near_partial`. Missing: other sums (`C175_scale_fails`).
* **C179** (detumbling removes the angular momentum). `C179_detumble_fails`: A satellite that turns about the direction of the field keeps turning. `C179_fixed_partial`: What holds of it in a field of fixed direction: the angular momentum across the field dies out exponentially, that along the field stays for ever. Missing: that the latter disappears, which is false. `C179_turning_partial`: And in a field that turns steadily all angular momentum dies out exponentially, whatever the moments of inertia and the rates.
* **C180** (desaturation brings the wheels to the speeds asked for). `C180_speeds_fails`: Wheels on a pyramid that run against each other are left as they are. `C180_fixed_partial`: In a field of fixed direction the excess momentum along it stays in the wheels, that across it dies out. Missing of the claim: the part along the field, and (with more than three wheels) the null motion. `C180_turning_partial`: In a turning field the excess momentum dies out exponentially. Missing of the claim: the null motion. `C180_speeds_partial`: So that wheels without a null motion come to the speeds asked for. Missing of the claim: wheels with one.
* **C182** (the avoidance law keeps instruments out of their forbidden regions). `C182_keeps_out_fails`: The claim fails: the earth, on the -x axis, is behind the boresight x at the start. The controller takes the earth to stay where it is while the satellite turns; half a turn later the boresight points at the earth. `C182_sun_partial`: What holds, for the commands of `tracking` and the library's dynamics: an instrument keeps out of its forbidden region about the sun. Missing: the earth, which the controller looks for in the wrong direction (see C96).
* **C183** (the avoidance law does not stop in front of the sun). `C183_reaches_fails`: The claim fails. `C183_rest_partial`: Where the satellite can rest, for one instrument: at the command, or where the axis of the direct turn to the command is at right angles to boresight and sun and the turn starts by reducing the margin (a positive multiple of boresight x sun for a bound to keep within, a negative one for a bound to keep outside). Missing: that every other motion comes to the command.
* **C184** (the wheels keep within their greatest speed over whole runs). `C184_limit_fails`: C184 fails for the gain of the satellite: two wheels turn at the greatest speed against each other, and the other two also; a small error of the attitude makes the flight software slow down one pair. That turns the satellite, and the wheels of the other pair, on which the check leaves no torque, are then too fast. `C184_speed_partial`: Over any run without total angular momentum, at the samples and in between, no wheel passes its greatest speed by more than what the recoil of the satellite can add in one interval, `c * maxTorque * T`, where `c` bounds how strongly the torques of the wheels turn the satellite about the axes of the wheels. For any gain, target, mounting of the star tracker, inertia and arrangement of wheels. `C184_satellite_partial`: C184 for the satellite: with four wheels arranged as on the satellite, in every run of the simulation the speeds stay within the limit and what the recoil of the satellite adds in one interval.
* **C185** (with nothing to correct the magnetorquers get no current). C185_fails: **C185** does not hold: a field of three components, not all of one sign. `C185_neg_zero_partial`: No component of a moment with a negative zero leaves the scaling as a number. `C185_refines_partial`: Without rounding and without negative zeros, `Str.distribute` is what the floats compute: the same numbers, and where it stops with `nonFinite` a current is nan. `C185_desaturate_partial`: **C185** (the part that holds). Wheels at their reference: no current in a field whose components all have the same sign; in every other field each torquer is commanded nan. `C185_detumble_partial`: **C185** (the part that holds). No rotation: the same of `detumble`, for a matrix of inertia with a positive diagonal.
* **C186** (the plotted error is the error at that time). C186_fails: **C186** does not hold: both at the same rate. C186_partial: **C186** (the part that holds). There is a curve exactly if the dynamics ran ten times as often as the flight software (apart from the first run), otherwise drawing raises; and the point number `k` shows update number `k / 10`. `C186_ten_partial`: **C186** (the part that holds). With a flight software that is ten times slower than the dynamics (as in the program) the curve is drawn if the stop time is less than one period of the dynamics after a run of the flight software, and then it is right.
* **C187** (torque is given up only when the wheels cannot produce it). C187_fails: **C187** does not hold. `C187_any_partial`: **C187** (the part that holds). Of a torque that `n` wheels in any arrangement can produce, at least the part `1 / √n` is produced, in the right direction. `C187_pyramid_partial`: **C187** (the part that holds). On the pyramid at least two thirds of a torque that the wheels can produce are produced, in the right direction. `C187_envelope_partial`: **C187** (the part that holds). Exactly which torques the pyramid delivers in full: `u` and `v` are the components along the azimuths of the wheels.
* **C190** (satellites keep their energy in the high-fidelity field). `C190_energy_fails`: A satellite over the equator that moves upwards loses or gains energy. `C190_rate_partial`: C190 (partial): the power that the wrong signs add is at most a ten-thousandth of the weight times the speed. `C190_drift_partial`: C190 (partial): so in a time `T`, with a speed of at most `V`, the energy changes by at most a ten-thousandth of `g V T`, where `g` is the gravity on the ground. `C190_mirror_partial`: C190 (partial): the change of the energy is undone where the motion is its own mirror image. A satellite that crosses a plane through the Earth's axis at right angles has, any time after this, the energy that it had the same time before.
* **C193** (a reading that is no attitude does not drive the wheels). C193_fails: **C193** does not hold: a satellite at rest with wheels at rest, and a star tracker that reports zeros. `C193_full_torque_partial`: **C193** (what happens instead). A reading that is no attitude, or a gyro reading with nan, makes every wheel get the greatest torque in its negative direction, whatever the attitude, the rate and the speeds of the wheels are. `C193_within_limit_partial`: **C193** (the part that holds). Whatever the messages contain, nan and infinities included, every wheel gets a number within the limit of the torque. `C193_unknown_speed_partial`: **C193** (what happens instead). A wheel whose speed is reported as nan gets the torque asked for, within the limit of the torque: the limit of the speed is not looked at. `C193_overspeed_partial`: **C193** (what happens instead). As long as the readings are no measurements every wheel is accelerated steadily, past every speed: the limit of the speed, which is computed from the torque asked for, does not stop it. `C193_refines_partial`: **C193** (the two models). For readings that are numbers, not all zero, and without rounding, what the floats compute is what `Fsw.updateState` computes. `C193_zero_speeds_partial`: **C193** (the same for `zero_wheel_speeds`). Whatever speeds are reported, every wheel gets a number within the limit of the torque; but a wheel whose speed is reported as nan gets the greatest torque in its negative direction, also if it stands. `C193_zero_refines_partial`: **C193** (the two models of `zero_wheel_speeds`). For speeds that are numbers, and without rounding, what the floats compute is what `Fsw.zeroWheelSpeeds` computes.
* **C194** (without a measurement the magnetorquers get no current). C194_fails: **C194** does not hold: three coils, triggers as they are made (memory 1, half-width 0.3), and a magnetometer that reports zeros. `C194_modulated_partial`: **C194** (the part that holds). A controller that is not bang-bang sends nan to all three torquers when a reading it uses is no measurement. `C194_calls_partial`: What `detumble` and `desaturate` send is what `actuator_commands` makes of the torques above. `C194_bang_bang_partial`: **C194** (what happens instead). A bang-bang controller goes on with the greatest moments in the directions it remembers, and remembers the same directions afterwards. `C194_no_limit_partial`: **C194** (what happens instead). A moment whose first component is nan is not scaled: the other torquers get the currents of their components, however far these are beyond the greatest moments. `C194_stuck_partial`: **C194** (what happens instead). For as long as the readings are no measurements, a bang-bang controller repeats one command.
* **C195** (a bad reading does not spoil the attitude filter for good). C195_fails `C195_one_reading_partial`: **C195** (what happens instead). One reading of the star tracker with nan in it makes the estimates of attitude and bias nan; one reading of the gyro makes the attitude nan. `C195_forever_partial`: **C195** (what happens instead). An attitude of nan stays nan through every later sequence of calls, whatever the readings are; with the first measurement that is made the bias is nan too, and it stays nan. `C195_zeros_partial`: **C195** (a reading of zeros). The filter takes a quaternion of zeros for a measurement that agrees with its estimate: attitude (of unit norm) and bias stay, and the covariance shrinks as with a true measurement. `C195_refines_partial`: **C195** (the two models). For readings that are numbers and without rounding, what the floats compute is what `Att.Kalman.measurement` and `Att.Kalman.propagate` compute.
* **C196** (the sidereal angle is that of the almanac). C196_fails: C196 does not hold for the class in use: half a second past a whole one the angle is that of half a second earlier. `C196_jclock_partial`: C196, what holds: the angle is the almanac's less the fraction of the second, at a full turn in 86400 s. `C196_whole_partial`: C196, what holds: on whole seconds, where the tests look, the angle is the almanac's. `C196_bound_partial`: C196, what holds: at every instant the angle is the almanac's up to 7.3e-5 rad, the turn of one second: 0.47 km on the equator.
* **C198** (margins with a delay can be relied on). C198_fails: The claim fails, for the moments of the satellite and the sampling time of the simulation. `C198_safe_partial`: What holds: multiples of the gain up to 0.63 of the gain margins reported for a delay of half of the sampling time keep the sampled loop stable.
* **C199** (the uncertainty of a predicted velocity depends on the time ahead). C199_fails: C199 fails. `C199_estimate_partial`: Partial: what the filter predicts, unlike how certain it says it is of it, settles as the calls are made shorter: none fails, the angular momentum tends to a multiple of what it was that depends on the time ahead alone, and the energy stays within a factor of 1.0003 of it. Missing: the covariance (`C199_grows`).
* **C200** (in a field that turns, the barbecue roll reaches the wanted spin). C200_fails: The claim is false: a field that turns about the pole of the ecliptic, twice in an orbit of 95 minutes. `C200_limit_partial`: C200, what holds for every start: the error tends to zero or to that of the upside-down rest, unless the field turns about the pole of the ecliptic or its rate is that of a resonance. `C200_converges_partial`: C200, what holds: outside of the two resonances, from every start whose error is at most that of rest, other than upside down at rest itself, the satellite comes into the wanted spin. Missing: fields that turn about the pole of the ecliptic, the rate of the second resonance, and bodies that are not symmetric. `C200_from_rest_partial`: So from rest, as `detumble` leaves the satellite, in every attitude other than upside down.
* **C201** (detumbling works with commands that are held between samples). C201_fails: **C201** does not hold: samples once a second, a spin of one turn per second. `C201_slow_partial`: What holds: a satellite whose rate times the period is less than two radians at the start (`ρ < 1`) loses in each period at least the part `k h (1 - ρ)` of the momentum across the field. Here `lam` is a lower bound of the moments of inertia, so that the rate is at most the momentum over `lam`. Missing: faster satellites and slower samples. `C201_fast_partial`: Whatever the satellite and the momentum it starts with, samples that follow each other fast enough detumble it: the momentum across the field dies out, that along the field stays.
* **C202** (estimates that were handed out stay as they were). C202_fails: **C202** does not hold: the bias that was returned changes with the next measurement. `C202_quaternion_partial`: What holds: the quaternion that `output` returned keeps its numbers whatever the program does afterwards; the bias does until the filter takes its next measurement. Missing: biases afterwards.
* **C203** (a position filter leaves the simulated satellite alone). C203_fails: **C203** does not hold. `C203_after_partial`: What holds: once the simulator has taken a step, nothing that is done with the filter changes the satellite. Missing: before that.
* **C204** (tracking works with commands that are held between samples). C204_fails `C204_short_partial`: With samples often enough, for the errors up to `V` and the momenta up to `B` at the beginning: the errors fall off exponentially, at a rate and with a factor that do not depend on the interval. `C204_limit_partial`: For controllers made by the constructor: however large the error and the momentum at the beginning, with samples often enough the satellite comes to rest in the commanded attitude, up to the sign of its quaternion.
* **C206** (the satellite of the examples). C206_fails: **C206** does not hold. `C206_current_fails`: The second part does not hold either. `C206_builds_partial`: **C206** (the part that holds). The function of the examples gives a satellite: its inertia is diagonal, although products of inertia are given (C93), and is what the numbers say for the body and the four wheels. `C206_torque_partial`: **C206** (the part that holds). The wheels produce every torque up to `0.0005 √(12/7)` (0.65 mN m) exactly, and of every greater size there is one that they do not. `C206_points_partial`: **C206** (the part that holds). A controller with the damping of the manager and a natural frequency up to 0.06 brings the satellite from rest to any commanded attitude, whatever its attitude was, if the wheels hold no more than 0.5 mN m s: the error falls exponentially, with at most three switches of the sign. (With `obj_avoidance` on, a run is one without objects in the way, as in C140.) `C206_manager_partial`: **C206** (the part that holds). With the gains of the manager (0.707, 0.1) the same is known of states whose error is less: from rest, attitudes up to 102 degrees from the command (`npNorm (q - qc) ^ 2 < 0.75`).
* **C209** (a position filter is as good as its fixes). `C209_bias_fails`: The full claim fails, on an orbit 500 km up. `C209_near_partial`: C209, with what is missing of the full claim: only on orbits within half a kilometre of 6778.5 km radius.
* **C215** (a bad fix does not spoil the position filter for good). C215_fails `C215_one_fix_partial`: **C215** (what happens instead). One fix with nan or an infinity in one component makes all six components of the estimate nan or infinite, unless the inverse raises and nothing changes. `C215_forever_partial`: **C215** (what happens instead). Such an estimate never becomes a number again, whatever fixes and steps follow. `C215_refines_partial`: **C215** (the two models). For fixes that are numbers and without rounding, what the floats compute is what `Pos.Kalman.update` and `Pos.Kalman.propagate` compute, the latter for a position that is not the origin.
* **C217** (point_and_stare brings the boresight to the target and keeps it there). C217_fails: It is false: a target right behind the boresight stays there. `C217_converges_partial`: From every state whose energy is below that of the target right behind the boresight, with the trigger at `1`, a line of sight that turns slowly and a torque that is not too large, the boresight comes to the target, and the body turns with the line of sight, up to errors in proportion to the acceleration of the line of sight and to the torque. The constants depend on the gains and on the energy only. Missing: a trigger left at `-1` by earlier tracking and a target behind (`C217_never`), and the target right behind the boresight (`C217_fails`). `C217_turns_round_partial`: The trigger at `-1` is turned round by the first call if the target is not too far behind. `C217_limit_partial`: **C217** (the limit, partial). Under the conditions of the claim and with less energy at the start than at rest with the target behind, the boresight comes to the target and the rate to zero. Missing: the starts with more energy.
* **C220** (the angles of a rounded quaternion are computed, and in range). C220_fails `C220_range_partial`: C220, what holds: right ascension and roll are from 0 to 360 degrees and the declination from -90 to 90, for every quaternion. Missing: that right ascension and roll are less than 360.
* **C221** (a quaternion and its negative are tracked alike). C221_fails: The claim fails: 147 degrees from the command the attitude feedback of a new controller changes sign with the sign of the quaternion read. `C221_law_partial`: Outside the hysteresis the law is the same for either sign of the attitude read and of the attitude commanded and for either memory, with or without objects to be avoided, and the controller then remembers the sign of the error. `C221_refines_partial`: Motions with arbitrary signs: whatever sign the attitude read has at each instant, and whatever the controller then remembers, a motion that starts with little enough energy never reaches the hysteresis, and is a motion of the loop that is given the true attitude and never switches its sign. `C221_converges_partial`: So they converge to the commanded attitude as if the signs were right: rate and distance from the command (as a quaternion, the nearer of `qc` and `-qc`) fall off exponentially, with a rate that depends on the gains and the hysteresis.
* **C223** (signs that change keep the satellite from the command no longer than true signs). C223_fails: So the claim is false. `C223_refines_partial`: Runs that start with little enough energy never reach the hysteresis, whatever the signs and the memory: they are runs of the loop that is given the true attitude and never switches. `C223_settles_partial`: So from there the satellite settles as C140 says, in a time that does not depend on the signs. What is missing to the claim is the start with more energy, for which it is false.
* **C224** (Reset makes the flight software start again). `C224_reset_fails`: A satellite that has been at rest in the first target attitude; after `Reset` it is sent on to the second target, while a new module lets it rest. `C224_memory_partial`: All that a module remembers is its target. Two modules with the same settings and the same target answer every sequence of calls alike, return for return and message for message, whatever they did before: the torques, the sign, the mode, the errors and the messages of earlier calls make no difference. `C224_reset_partial`: C224, what holds: after any calls, with `Reset` among them or not, the module sends what a new one sends that is given the target of that moment. Missing: `Reset` does not bring the target back (`C224_reset_fails`). `C224_fresh_partial`: C224, what holds: as long as the satellite has not been at rest in the first target attitude, the claim is true: after `Reset`, and without it, the module sends what a new one sends.
* **C225** (noise parameters that cannot be used are refused when the sensor is made). `C225_sensor_made_fails`: Refuted: a magnetometer with standard deviation -1 is made, and reads without noise, and raises with noise. `C225_noise_free_partial`: Without noise the parameters do not matter: the reading is the one of the unchecked model. `C225_noisy_partial`: With noise, where the true values exist: `ValueError` if any of the six standard deviations is negative, otherwise the reading of C33. `C225_gyro_partial`: The gyro: the constructor refuses a negative `init_bias` and nothing else; a negative `rrw_std_dev` raises at the first `propagate`, whatever the step. `C225_arw_partial`: A negative `arw_std_dev` is never noticed: after any steps both gyros raise the same or read the same.
<!-- end generated -->
