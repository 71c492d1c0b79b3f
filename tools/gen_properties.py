#!/usr/bin/env python3
"""Writes /verif/properties.jsonl.  One call of P() per property."""
import json, os
rows = []
def P(title, statement, quantifier, why, anchors):
    rows.append(dict(id="C%02d" % (len(rows)+1), title=title, statement=statement,
                     quantifier=quantifier, why_tests_cant=why, anchors=anchors))
S = "src/oresat_adcs/"
VEC, QUA, FRA, ATT = S+"functions/vector.py", S+"functions/quaternion.py", S+"functions/frame.py", S+"functions/attitude_estimation.py"
JD, SEN, DYN, OBS, CON = S+"classes/jday.py", S+"classes/sensor.py", S+"classes/dynamics.py", S+"classes/observers.py", S+"classes/controller.py"
STR, ENV, SM = S+"configuration/structure.py", S+"configuration/environment.py", S+"configuration/state_machine.py"
MAN, MANC, SIM = S+"system/manager.py", S+"system/manager_class.py", S+"system/simulator.py"
FSW, SQ, DSS, BAS = "simulation/FlightSoftwareModule.py", "simulation/Quaternions.py", "simulation/ADCS_Discrete_State_Space_Calculator.py", "simulation/ADCS_Simulation_Basilisk.py"
def A(f, *syms): return ["%s:%s" % (f, s) for s in syms]

# ---------- vector ----------
P("saturation bounds every component and keeps direction",
  "For every command vector x of any length >= 1 and every limit x_max >= 0, saturation(x, x_max) has all components of magnitude <= x_max, is a scalar multiple k*x with 0 <= k <= 1, k is the largest such factor, and a vector already inside the limit is returned unchanged.",
  "all vectors of all lengths, all non-negative limits", "A test samples a few vectors; the bound and direction must hold for every length and every real command.", A(VEC,"saturation"))
P("normalize yields a unit vector in the same direction",
  "For every non-zero array, normalize(q) has Euclidean norm 1 and is a positive multiple of q; the zero array is returned unchanged; normalize is idempotent; pointing_vector(p, t) is the unit vector for which p + d*u = t with d the distance.",
  "all arrays of all lengths", "Continuum of inputs.", A(VEC,"normalize","pointing_vector"))
P("cross(v) is the cross-product matrix",
  "For all v, w: cross(v).dot(w) == np.cross(v, w), cross(v) is skew-symmetric, and quaternion.xi(q).dot(w) equals the quaternion product of q with the pure quaternion (0, w).",
  "all vectors and quaternions", "Continuum of inputs.", A(VEC,"cross")+A(QUA,"xi"))
# ---------- quaternion ----------
P("product is Hamilton's quaternion product",
  "quaternion.product(a, b) is exactly Hamilton's product with scalar part first: it is associative, bilinear, has unit (1,0,0,0), multiplies norms, and is not commutative.",
  "all triples of quaternions", "Associativity and norm multiplicativity are universally quantified identities.", A(QUA,"product"))
P("conjugate is the inverse of a unit quaternion",
  "For every unit q, product(q, conjugate(q)) == product(conjugate(q), q) == (1,0,0,0); conjugation reverses products and is an involution.",
  "all quaternions", "Continuum of inputs.", A(QUA,"conjugate","product"))
P("sandwich is a proper rotation of coordinates",
  "For every unit quaternion q, v -> sandwich(q, v) is linear and preserves dot products, lengths and cross products, so it is a proper rotation; q and -q give the same rotation.",
  "all unit quaternions and all vectors", "Continuum of inputs.", A(QUA,"sandwich"))
P("sandwich_opp undoes sandwich",
  "For every unit quaternion q and vector v, sandwich_opp(q, sandwich(q, v)) == v == sandwich(q, sandwich_opp(q, v)).",
  "all unit quaternions and all vectors", "Continuum of inputs.", A(QUA,"sandwich","sandwich_opp"))
P("frame composition",
  "Transforming first into frame p and then by q relative to p is the transformation of product(p, q): sandwich(product(p, q), v) == sandwich(q, sandwich(p, v)).",
  "all pairs of quaternions, all vectors", "Order-of-composition mistakes agree on commuting samples.", A(QUA,"product","sandwich"))
P("error_quat measures the rotation from reference to current attitude",
  "For unit q, q_ref: product(q_ref, error_quat(q, q_ref)) == q, the result is a unit quaternion, its vector part is zero exactly when q = q_ref or q = -q_ref, and a vector in q_ref coordinates is carried by it to q coordinates.",
  "all pairs of unit quaternions", "Continuum of inputs.", A(QUA,"error_quat"))
P("axisangle_to_quat encodes the rotation by theta about r",
  "For every unit axis r and angle theta, axisangle_to_quat(r, theta) is a unit quaternion, sandwich_opp of it is the right-handed (active) rotation by theta about r given by Rodrigues' formula, and sandwich of it is the rotation by -theta.",
  "all unit axes, all angles", "Continuum of inputs; sign conventions must hold everywhere.", A(QUA,"axisangle_to_quat","sandwich","sandwich_opp"))
P("eulerangle_to_quat is the 3-2-1 yaw-pitch-roll rotation",
  "For all angles in degrees, eulerangle_to_quat(RA, dec, roll) is a unit quaternion equal to the product of the rotation by RA about z, then dec about y, then roll about x; turning any angle by 360 degrees leaves the attitude unchanged (the quaternion changes sign).",
  "all real angle triples", "Continuum of inputs.", A(QUA,"eulerangle_to_quat"))
P("equatorial angles round-trip",
  "Converting star-tracker angles to a quaternion with eulerangle_to_quat and back with _quat2equatorial returns the same right ascension, declination and roll (for RA, roll in [0,360) and |dec| < 90); the returned RA and roll lie in [0,360) and dec in [-90,90].",
  "all angle triples in the stated ranges", "Continuum of inputs and branch cuts of arctan2.", A(QUA,"_quat2equatorial","eulerangle_to_quat"))
P("path_lift picks the closest representative",
  "path_lift(RA, dec, roll, q_ref) is one of the two quaternions of the measured attitude and is at least as close to q_ref (in metric) as the other, so its dot product with q_ref is non-negative; feeding angles shifted by 360 degrees gives the same answer unless the two representatives are equally close.",
  "all angles and reference quaternions", "Continuum of inputs.", A(QUA,"path_lift","metric"))
# ---------- frames ----------
P("inertial_to_ecef is a rotation about the pole",
  "At every clock reading, inertial_to_ecef(clock) is an orthogonal matrix of determinant 1 that fixes the z-axis and preserves lengths; a point fixed in ECEF moves eastward (right-handed about +z) in the inertial frame as the sidereal angle grows.",
  "all clock readings, all vectors", "Continuum of inputs.", A(FRA,"inertial_to_ecef"))
P("lvlh_to_inertial is a right-handed orthonormal frame",
  "For every position r and velocity v that are not parallel, lvlh_to_inertial(r, v) is orthogonal with determinant 1, its third column points to the Earth's centre and its second against the orbital angular momentum, and its first has positive component along v.",
  "all non-degenerate position/velocity pairs", "Continuum of inputs.", A(FRA,"lvlh_to_inertial"))
P("geodetic_to_ECEF lies on the ellipsoid and rises along the normal",
  "For all lat, long: the point of height 0 lies on the ellipsoid of revolution with the code's semi-axis and eccentricity, and increasing h moves the point along the outward unit surface normal by exactly h.",
  "all latitudes, longitudes, heights", "Continuum of inputs.", A(FRA,"geodetic_to_ECEF"))
P("ecef_to_lla respects the symmetries of the Earth and is exact on the equator and at the poles",
  "Mirroring a position in the equatorial plane negates latitude and keeps height; rotating it about the pole keeps latitude and height; on the equator latitude is 0 and height is the distance to the equatorial circle; on the polar axis latitude is +-90 degrees and height the distance to the pole.",
  "all positions", "Universally quantified symmetry; tests sample.", A(FRA,"ecef_to_lla"))
P("geodetic conversions are mutually inverse",
  "Converting (lat, long, h) to ECEF with geodetic_to_ECEF and back with ecef_to_lla returns the same (lat, long, h).",
  "all geodetic coordinates", "Continuum of inputs; unit and constant mismatches can hide at sampled points such as lat = 0.", A(FRA,"geodetic_to_ECEF","ecef_to_lla"))
# ---------- attitude estimation ----------
P("triad_algorithm reproduces the measured directions",
  "For unit reference r1 and unit measurement b1 (b1 != -r1) and non-degenerate second vectors, triad_algorithm returns a unit quaternion whose sandwich carries r1 exactly to b1 and the normal r1 x r2 to the direction of b1 x b2; with noise-free data it therefore carries r2 to b2.",
  "all admissible vector quadruples", "Continuum of inputs.", A(ATT,"triad_algorithm"))
P("triad_algorithm reports degenerate input by returning False",
  "When r1 and r2 (or b1 and b2) are parallel, or b1 == -r1, triad_algorithm returns False instead of a meaningless array.",
  "all degenerate inputs", "The identity test never holds for any input; a test on one degenerate input shows one case only.", A(ATT,"triad_algorithm"))
P("flae solves Wahba's problem for its weights",
  "For any number of weighted vector pairs, the matrix built by flae is symmetric, its quadratic form at a quaternion q is the weighted sum of b_k . sandwich(q, r_k), the quartic whose root it takes is the characteristic polynomial of that matrix, and when the root is exact and the pivots are non-zero the returned unit quaternion is an eigenvector for that root.",
  "all lists of weights and vector pairs of any length", "Universally quantified polynomial identity over lists.", A(ATT,"flae"))
# ---------- clock ----------
P("leap years and month lengths are Gregorian",
  "is_leap_year is true exactly for years divisible by 4 and not by 100, or by 400, and days_in_month gives the Gregorian month length for every month 1..12.",
  "all years and months", "Unbounded years.", A(JD,"Clock.is_leap_year","Clock.days_in_month"))
P("ticking a Clock keeps a valid calendar date",
  "Starting from a valid date and time, after any sequence of ticks the year/month/day/hour/minute fields are a valid Gregorian date and time of day and the cached leap flag matches the year.",
  "all valid starting times and all finite sequences of tick lengths", "Unbounded histories.", A(JD,"Clock.tick"))
P("a Clock tracks elapsed time",
  "After any sequence of ticks the calendar reading equals the starting instant plus the total ticked time, and absolute equals that total.",
  "all starting times and all finite tick sequences", "Rollover depends on the whole history of tick lengths; step sizes that do not hit the minute boundary are rarely sampled.", A(JD,"Clock.tick"))
P("Clock.is_after compares instants",
  "clock.is_after(date_time) is True exactly when the clock's date and time is at or after the given [Y,M,D,h,m,s].",
  "all pairs of valid dates", "Field-wise comparison agrees with chronological order on many sampled pairs.", A(JD,"Clock.is_after"))
P("Clock.is_minutes_away is a look-ahead window",
  "clock.is_minutes_away(t, n) for 0 <= n < 60 is True exactly when t is still in the future and at most n minutes away.",
  "all clock readings, times and windows", "Borrow logic across hour, day, month and year boundaries.", A(JD,"Clock.is_minutes_away"))
P("Julian date formula is the true Julian date",
  "For every Gregorian date from March 1900 to February 2100, Clock.julian_date gives the true Julian date (days counted by the calendar, fraction from the time of day), and it agrees with JClock.julian_date.",
  "all dates in the range of validity and all times of day", "73,000 dates times a continuum of times; the error outside the range must be characterised for all years.", A(JD,"Clock.julian_date","JClock.julian_date"))
P("JClock.tick advances time by dt",
  "JClock.tick(dt) moves the clock by dt rounded to a whole microsecond: for whole-microsecond dt, ticking is exact and tick(a); tick(b) equals tick(a+b); after any sequence of n ticks the reading differs from start plus the sum by at most n half-microseconds; a tick outside the datetime range raises and leaves the clock unchanged.",
  "all clocks, all tick sequences", "Unbounded histories of real-valued steps.", A(JD,"JClock.tick"))
P("JClock order and differences are consistent",
  "is_after is a strict total order on instants, minutes_away is antisymmetric and additive, is_minutes_away(t, n) holds exactly when minutes_away(t) differs from n by less than one minute, julian_date is strictly increasing and a difference of one day is a difference of exactly 1.",
  "all pairs and triples of instants", "Order axioms over all instants.", A(JD,"JClock.is_after","JClock.minutes_away","JClock.is_minutes_away","JClock.julian_date"))
P("the absolute time counter counts elapsed seconds on every clock class",
  "For both clock classes, clock.absolute after any sequence of ticks is the sum of the tick lengths, since the BBQ-roll attitude is computed from it.",
  "all finite tick sequences, both clock classes", "Histories; one class silently never updates the counter.", A(JD,"Clock.tick","JClock.tick")+A(CON,"ReactionWheelsController.ecliptic_attitude"))
P("the two clock classes agree on sidereal time",
  "For the same date and whole-second time between March 1900 and February 2100, Clock and JClock give the same centuries_elapsed, gmst_seconds and theta_gmst, and theta_gmst always lies in [0, 2*pi).",
  "all dates in range and whole-second times", "Two different formulas must agree everywhere.", A(JD,"Clock.gmst_seconds","JClock.gmst_seconds","Clock.theta_gmst","JClock.theta_gmst"))
P("the sidereal angle advances with time",
  "Whenever a JClock advances by less than a minute, gmst_seconds advances by 1.0027... sidereal seconds per second of elapsed time.",
  "all instants and advances", "Tests use whole-second times; the simulator steps by 0.05 s.", A(JD,"JClock.gmst_seconds","JClock.theta_gmst")+A(SIM,"SimulatorDaemonInterface"))
# ---------- sensors ----------
P("noise-free measurement is the true state",
  "For every sensor and state, measurement(state, noisy=False) equals the true value (position, velocity, attitude, rate, wheel speeds, body-frame magnetic field, body-frame sun vector) and consumes no randomness.",
  "all states, all random streams, all sensors", "All states and generator states.", A(SEN,"Sensor.measurement","GPS_pos","GPS_vel","StarTracker","Gyro","Wheel_vel","Magnetometer","SunSensor"))
P("vector sensors report the rotated inertial vector",
  "For every unit attitude, the noise-free magnetometer reading has the magnitude of the inertial field and the noise-free sun sensor reading is a unit vector, each carried back to the inertial vector by sandwich_opp.",
  "all states with unit attitude", "Continuum of inputs.", A(SEN,"Magnetometer.true_value","SunSensor.true_value"))
P("star tracker measurements are attitudes",
  "Every star tracker measurement of a unit attitude is a unit quaternion, noisy or not.",
  "all unit attitudes and noise draws", "Any particular random draw is one sample.", A(SEN,"StarTracker.generate_noise","Sensor.measurement"))
P("gyro bias is a random walk",
  "After any sequence of propagate calls with positive steps the gyro's bias is the initial bias plus the sum of sqrt(dt_i) times the drawn increments, and a noisy reading is the true rate plus the average of the last two biases plus the scaled white noise.",
  "all step sequences and all draws", "Histories and random draws.", A(SEN,"Gyro.propagate","Gyro.generate_noise"))
# ---------- structure ----------
P("magnetorquer current command produces the commanded moment",
  "For each torquer type and every commanded moment in its range, driving the torquer with getCurrent(m) produces a moment along its axis within one part in a million of m.",
  "all torquer types, all moments in range", "Continuum of inputs and hand-rounded constants.", A(STR,"Magnetorquer.actuate","Magnetorquer.getCurrent"))
P("distribute never exceeds a torquer's maximum and keeps the direction of the moment",
  "For every commanded moment, the moment realised by distribute is a non-negative multiple (at most 1) of the command and no torquer is asked for more than its maximum moment.",
  "all commanded moments, all torquer sets", "Sign combinations; a positive-octant test passes.", A(STR,"MagnetorquerSystem.distribute"))
P("wheel allocation realises the commanded torque",
  "When the wheel axes span space and the torque limit is not active, the torque produced by the accelerations commanded for T is exactly T, with the smallest possible sum of squared wheel torques.",
  "all wheel sets spanning space, all torques", "All geometries and torques.", A(STR,"ReactionWheelSystem.accelerations","ReactionWheelSystem.torque","Wheel.acceleration","Wheel.torque"))
P("torque limiting respects each wheel's limit and keeps the torque direction",
  "With torque limiting on and max_T >= 0, no wheel is asked for more than max_T and the realised torque is k*T with 0 <= k <= 1, and k = 1 if no wheel is over its limit.",
  "all wheel sets spanning space, all torques, all limits", "All geometries and torques.", A(STR,"ReactionWheelSystem.accelerations"))
P("the null motion of the pyramid produces no torque",
  "For four wheels at equal inclination and azimuths 90 degrees apart, accelerating them by any multiple of (-1,1,-1,1) produces zero net torque and zero change of net wheel momentum, and these are the only accelerations producing no torque.",
  "all inclinations strictly between 0 and 90 degrees, all azimuths, all multiples", "Continuum of geometries.", A(STR,"ReactionWheelSystem","ReactionWheelSystem.torque","ReactionWheelSystem.momentum")+A(MANC,"ManagerDaemonInterface.mission_input"))
P("the inertia matrices are symmetric and invertible",
  "For positive principal moments and non-negative wheel moments with unit axes, the satellite's total and reduced inertia (without products of inertia) are symmetric positive definite, so construction succeeds, and products of inertia enter symmetrically as xy, xz, yz.",
  "all wheel sets and moments", "All configurations.", A(STR,"Satellite.__init__","Wheel.__init__","ReactionWheelSystem.__init__"))
P("exposed area of the box satellite",
  "For every direction v, the total projected area is sum of |v_i| times the area of the face pair normal to axis i: it is non-negative, even in v, positive for v != 0 when the faces have positive area, and only faces turned toward v contribute.",
  "all directions and box dimensions", "Continuum of directions.", A(STR,"Wall.projected_area","Satellite.__init__")+A(DYN,"Dynamics.area_and_cop"))
P("aerodynamic and solar torque of a wall is its lever arm times its force",
  "For every wall and flow direction, the torque returned with a wall's force is the cross product of the wall's centroid (its centre of pressure) with that force.",
  "all walls and directions", "Dimensional error invisible for unit areas.", A(STR,"Wall.drag_force","Wall.srp_force","Wall.center_of_pressure"))
P("solar pressure pushes away from the sun",
  "For every wall, sun direction and non-negative pressure with absorption in [0,1], the solar force has non-positive component along the sun direction and is zero when the wall faces away.",
  "all walls and sun directions", "Continuum of inputs.", A(STR,"Wall.srp_force"))
# ---------- environment ----------
P("relative velocity vanishes for an object moving with the atmosphere",
  "The velocity relative to the co-rotating atmosphere is v - omega x r for every position and velocity; in particular it is zero for a point rotating with the Earth.",
  "all positions and velocities", "Sign errors vanish on the sampled axis.", A(ENV,"Environment.relative_vel","OrbitalEnvironment.relative_vel"))
P("atmospheric density decreases with height",
  "On 250-500 km the density is positive and strictly decreasing with height, at the base of each band it equals the tabulated base density, and outside that range the call raises instead of returning a number.",
  "all heights", "Continuum of heights and band boundaries.", A(ENV,"Environment.atmo_density","OrbitalEnvironment.atmo_density"))
P("central gravity obeys the inverse square law",
  "Without high fidelity, gravity_accel points exactly to the Earth's centre with magnitude MU/r^2 at every non-zero position.",
  "all non-zero positions", "Continuum of inputs.", A(ENV,"Environment.gravity_accel","OrbitalEnvironment.gravity_accel"))
P("high-fidelity gravity is the gradient of the zonal potential",
  "hi_fi_gravity is at every non-zero position the gradient of the geopotential with J2, J3, J4 zonal terms, so the simulated field is conservative.",
  "all non-zero positions", "A derivative identity at every point.", A(ENV,"Environment.hi_fi_gravity","OrbitalEnvironment.hi_fi_gravity"))
P("the magnetic field is that of a rotating dipole",
  "At every position of length r the field magnitude lies between |m|/r^3 and 2|m|/r^3, the field is even in position, scales as the inverse cube, and co-rotates with the Earth.",
  "all positions and Earth angles", "Continuum of inputs.", A(ENV,"Environment.magnetic_field","OrbitalEnvironment.magnetic_field"))
P("sun vector and shadow",
  "SRP_info returns a unit vector toward the sun, a positive pressure, and reports shadow for a satellite outside the Earth exactly when it lies in the anti-sunward cylinder of Earth's radius.",
  "all instants and positions", "Continuum of inputs.", A(ENV,"Environment.SRP_info","OrbitalEnvironment.SRP_info"))
P("the two environment classes agree",
  "Environment's methods applied to a state's position, velocity, length, height and frame give the same result as OrbitalEnvironment's methods applied to the state.",
  "all states", "Two copies of each formula must agree everywhere.", A(ENV,"Environment","OrbitalEnvironment"))
# ---------- state machine ----------
P("the current state is always one of the nine states",
  "After any sequence of change_state, set_next_mission and transition calls, get_current_state() returns a member of State.",
  "all call histories including arbitrary arguments", "Unbounded histories and argument values.", A(SM,"StateMachine.change_state","StateMachine.get_current_state"))
P("change_state follows the documented transition table",
  "change_state(new) returns True and moves to new exactly when the table allows the move - in particular BBQ to POINT is allowed, as it is for every other active state; otherwise it returns False and moves to FAILED.",
  "all state pairs, all histories", "Every pair after every history.", A(SM,"StateMachine.change_state","StateMachine.__init__"))
P("sleep is entered only through spindown",
  "In every history of calls with states as arguments, the machine enters SLEEP from another state only from SPINDOWN, and enters SPINDOWN from another state only from SAFE; from FAILED the only way out is UNSAFE.",
  "all call histories", "Reachability over unbounded histories.", A(SM,"StateMachine.change_state"))
P("automatic transitions do not fail the machine",
  "Called in any state with any sensor values and any mission, StateMachine.transition completes without an exception and never drives the machine to FAILED by itself.",
  "all states, sensor values and missions", "All states and inputs.", A(SM,"StateMachine.transition","State.transition","State.DETUMBLE_transition","State.BBQ_transition","State.UNSAFE_transition","State.SAFE_transition","State.POINT_transition"))
P("state changes are linearizable",
  "Under every interleaving of any number of threads calling change_state and set_next_mission, the result is that of executing the completed calls one at a time in the order in which they took the lock; readers see a state from that sequence.",
  "all interleavings of all thread programs", "Schedules.", A(SM,"StateMachine.change_state","StateMachine.set_next_mission","StateMachine.get_current_state"))
P("the lock is always released",
  "Whatever the arguments, when a call to change_state or set_next_mission ends - normally or by an exception - the lock is free again, so later calls are not blocked.",
  "all call histories and argument values", "Exceptional exits after particular histories.", A(SM,"StateMachine.change_state","StateMachine.set_next_mission"))
P("a transition decision is applied to the state it was computed from",
  "If the machine's transition method decides to move, the move is validated against the state the decision was made in, even when another thread changes the state concurrently.",
  "all interleavings", "Schedules.", A(SM,"StateMachine.transition"))
# ---------- manager ----------
P("commands match the commanded mode",
  "After mission_input: SLEEP and FAILED command zero currents and wheel accelerations, DETUMBLE and POINT leave respectively wheels and torquers at zero, and every state that is not an active control mode (UNSAFE, SAFE, MANUAL) does not keep issuing the previous mode's commands.",
  "all modes, model states and previous commands", "Stale commands depend on the history of modes.", A(MANC,"ManagerDaemonInterface.mission_input"))
P("spindown slows the wheels and stops",
  "In SPINDOWN the commanded wheel accelerations never increase wheel energy, act only on the null motion until that has died out, are zero once it has and the wheels are slow, and applied repeatedly with a small enough step bring the machine to the condition for SLEEP.",
  "all wheel speeds, all numbers of steps", "Convergence over unbounded steps.", A(MANC,"ManagerDaemonInterface.mission_input")+A(SM,"State.SPINDOWN_transition"))
P("the manager interfaces can be constructed",
  "ManagerDaemonInterface of system.manager and of system.manager_class can be constructed from the library's own dynamics model.",
  "all models", "Every construction path.", A(MAN,"ManagerDaemonInterface.__init__")+A(MANC,"ManagerDaemonInterface.__init__")+A(OBS,"KalmanFilters.__init__"))
# ---------- controller ----------
P("the hysteretic sign",
  "A MayhewTrigger always answers +1 or -1; with half-width 0 its answer has the sign of every non-zero input; for inputs inside the half-width the answer never changes; with half-width >= 1 and inputs in [-1,1] it is constant.",
  "all initial values, half-widths and input histories", "Unbounded input histories.", A(CON,"MayhewTrigger"))
P("hysteresis prevents chattering",
  "For every input history, between two consecutive changes of a MayhewTrigger's answer the input travels at least twice the half-width, so the number of changes is bounded by the total variation of the input divided by twice the half-width, plus one.",
  "all input histories", "Unbounded input histories.", A(CON,"MayhewTrigger.step"))
P("magnetorquers realise the commandable part of the torque",
  "For every non-zero field B and commanded torque T, the moment computed before allocation is orthogonal to B and its torque on the satellite is the component of T orthogonal to B.",
  "all fields and torques", "Continuum of inputs.", A(CON,"MagnetorquerController.actuator_commands"))
P("detumbling removes angular momentum",
  "For every non-zero field and rate, the torque asked for by detumble (before current limits) never increases the magnitude of the body's angular momentum and never increases its kinetic energy.",
  "all fields, rates and inertias", "Continuum of inputs; the energy half depends on the inertia being spherical.", A(CON,"MagnetorquerController.detumble"))
P("BBQ roll alignment",
  "no_q_bbq_roll commands zero torque exactly when check reports perfect alignment, and desaturate commands zero when the wheels are at the reference speeds.",
  "all states", "Continuum of inputs.", A(CON,"MagnetorquerController.no_q_bbq_roll","MagnetorquerController.check","MagnetorquerController.desaturate"))
P("acquire_target points the boresight at the target",
  "For unit attitude and unit boresight and a target different from the position, turning the body by acquire_target's rotation makes the boresight point at the target.",
  "all positions, attitudes, boresights and targets", "The antiparallel case has measure zero and is not sampled.", A(CON,"ReactionWheelsController.acquire_target")+A(VEC,"R_axis_angle","pointing_vector"))
P("tracking control cancels gyroscopic torque and is stable",
  "Applying the wheel accelerations commanded by the tracking law (without avoidance, unlimited torque, no disturbance, constant attitude command) to the library's own dynamics, the energy-like function |w|^2/2 + 2*alpha*(1 - s*q0) has derivative -gamma*|w|^2, and a switch of the hysteretic sign strictly decreases it.",
  "all attitudes, rates, wheel speeds, inertias and gains", "Continuum of states; a Lyapunov identity.", A(CON,"ReactionWheelsController.tracking","ReactionWheelsController.actuator_commands")+A(DYN,"Dynamics.vector_field"))
P("tracking works with the shipped environments",
  "ReactionWheelsController.tracking returns a torque for every state when the model uses one of the library's environment classes.",
  "all states, both environments", "Every call path.", A(CON,"ReactionWheelsController.__init__","ReactionWheelsController.tracking")+A(ENV,"OrbitalEnvironment"))
P("avoidance term is well defined and reduces to plain feedback",
  "allowable_zone evaluates the logarithm only at positive arguments for every state, and when no instrument is near an object it cares about it equals the plain attitude feedback.",
  "all states, instruments and objects", "All geometries including violated constraints.", A(CON,"ReactionWheelsController.allowable_zone")+A(STR,"SensitiveInstrument"))
# ---------- dynamics ----------
P("attitude kinematics preserve the quaternion norm",
  "The attitude derivative returned by vector_field is orthogonal to the attitude at every state, and after every Integrator.update the attitude is a unit quaternion (unless it was numerically annihilated to zero).",
  "all states and step histories", "Unbounded histories.", A(DYN,"Dynamics.vector_field","Integrator.update"))
P("rotational dynamics conserve angular momentum",
  "Without environment torque the total angular momentum of body plus wheels, expressed in the inertial frame, has zero derivative along vector_field for every wheel command; with environment torque its derivative is that torque.",
  "all states, inertias and wheel commands", "Continuum of states; a derivative identity.", A(DYN,"Dynamics.vector_field"))
P("wheel speeds integrate commands exactly",
  "After integrate with held commands, wheel speeds have changed by exactly (number of steps)*dt*acceleration, whatever the rest of the state does, and position's first difference uses the classical fourth-order Runge-Kutta combination.",
  "all states, commands and durations", "Unbounded number of steps.", A(DYN,"Integrator.RK4_step","Integrator.integrate"))
P("integrate takes the expected number of steps",
  "For dt of at least 1 ms and a duration of n*dt, integrate performs exactly n steps and advances the clock n times by dt (for dt of at least 2 ms also when the duration is up to 1 ms off); integrating n*dt then m*dt equals integrating (n+m)*dt; it always ends for positive dt and raises for other dt.",
  "all step sizes and durations", "Unbounded loop counts.", A(DYN,"Integrator.integrate")+A(SIM,"SimulatorDaemonInterface"))
P("the simulator uses the step size it is given",
  "SimulatorDaemonInterface(model, state, dt) integrates with step dt, and propagate(duration) advances the simulated time by duration.",
  "all step sizes and durations", "All values of dt and duration.", A(SIM,"SimulatorDaemonInterface.__init__","SimulatorDaemonInterface.propagate"))
P("gravity-gradient torque",
  "The gravity torque is orthogonal to the local vertical, vanishes when the vertical is a principal axis (in particular for spherical inertia), and is unchanged under position -> -position.",
  "all states and inertias", "Continuum of states.", A(DYN,"Dynamics.gravity_F_and_T"))
P("drag dissipates energy",
  "For every state at which density is defined and the relative velocity is non-zero, the drag force is a non-positive multiple of the relative velocity expressed in the inertial frame.",
  "all states", "Continuum of states.", A(DYN,"Dynamics.drag_F_and_T"))
P("solar torque follows the body attitude",
  "The solar force and torque depend on the sun direction as seen from the body: two states differing only in attitude with the same body-frame sun vector have the same body-frame torque, and in shadow both are zero.",
  "all states", "Continuum of states.", A(DYN,"Dynamics.solar_F_and_T"))
P("satellite state attributes are consistent with the array",
  "After construction with a clock, addition or update(), the attributes position ... wheel_vel, length, r_ecef and geodetic coordinates are those of the array contents and clock; assigning an attribute does not change the array; construction without a clock raises.",
  "all states and mutation histories", "Aliasing histories.", A(DYN,"SatelliteState"))
# ---------- observers ----------
P("attitude filter covariance stays symmetric positive definite",
  "After any sequence of propagate (dt > 0) and measurement calls the attitude filter's covariance is symmetric positive definite, a measurement never increases it, and the matrix inverse in measurement never fails.",
  "all measurement and gyro histories", "Unbounded histories of real inputs.", A(OBS,"DiscreteAttitudeStartrackerKalman.measurement","DiscreteAttitudeStartrackerKalman.propagate","DiscreteAttitudeStartrackerKalman.state_transition"))
P("attitude filter outputs unit quaternions",
  "The attitude estimate of the filter is a unit quaternion after every propagate and every measurement.",
  "all histories", "Unbounded histories.", A(OBS,"DiscreteAttitudeStartrackerKalman.propagate","DiscreteAttitudeStartrackerKalman.state_transition","DiscreteAttitudeStartrackerKalman.reset"))
P("attitude filter treats q and -q alike",
  "A star tracker reading of the estimated attitude itself leaves estimate and bias unchanged, and readings q and -q, which are the same attitude, have the same effect.",
  "all filter states and readings", "Continuum of readings.", A(OBS,"DiscreteAttitudeStartrackerKalman.measurement"))
P("attitude error transition matrices form a semigroup",
  "The error transition matrix for constant rate satisfies phi(w, s+t) == phi(w, t).dot(phi(w, s)), phi(w, 0) is the identity, and its attitude block is the rotation by -|w|t about w.",
  "all rates and time steps", "Continuum of inputs.", A(OBS,"DiscreteAttitudeStartrackerKalman.state_transition"))
P("position filter covariance stays symmetric positive semidefinite",
  "After any sequence of propagate and update calls the position filter's covariance is symmetric positive semidefinite, an update never increases it and leaves it at most the measurement covariance, and the matrix inverse never fails.",
  "all histories", "Unbounded histories.", A(OBS,"DiscretePositionKalman.update","DiscretePositionKalman.propagate"))
P("position filter update is consistent",
  "update with a measurement equal to the estimate leaves the estimate unchanged; after every update the state object's position and velocity are the filter's estimate; propagate is linear in the estimate.",
  "all filter states and measurements", "Continuum of inputs.", A(OBS,"DiscretePositionKalman.update","DiscretePositionKalman.output"))
P("position filter linearises gravity",
  "The lower-left block of F_continuous is the Jacobian of the central gravity acceleration at the current position estimate.",
  "all non-zero positions", "A derivative identity at every point.", A(OBS,"DiscretePositionKalman.F_continuous")+A(ENV,"OrbitalEnvironment.gravity_accel"))
# ---------- simulation / flight software ----------
P("flight software torque limits",
  "check_torque_vals never commands more than maxTorque on any wheel, never drives a wheel whose speed is within maxSpeed past maxSpeed in one step, and never reverses the sign of the requested torque.",
  "all torque requests and wheel speeds", "Continuum of inputs.", A(FSW,"FlightSoftware.check_torque_vals"))
P("flight software takes the short way round",
  "The torque computed by the flight software for an attitude error q and for -q (the same attitude) is the same, so rotations are never longer than 180 degrees.",
  "all error quaternions and rates", "Continuum of inputs.", A(FSW,"FlightSoftware.check_hemi","FlightSoftware.quaternion_controller"))
P("controller mode hysteresis",
  "mode_check's mode is always slew or precise; it changes to precise only below 30 degrees and to slew only above 40 degrees, so between two changes the error moves by more than 10 degrees.",
  "all error histories", "Unbounded histories.", A(FSW,"FlightSoftware.mode_check"))
P("simulation quaternion helpers agree with the library",
  "quat_mult of the simulation (scalar last) is the library's product up to component order and normalisation, its results are unit quaternions, and error_angle of quat_error(p, q) is zero exactly when p and q are the same attitude.",
  "all non-zero quaternions", "Two conventions must agree everywhere.", A(SQ,"quat_mult","quat_error","quat_conjugate","normalize","to_scalar_last","error_angle")+A(QUA,"product"))

here = os.path.dirname(os.path.abspath(__file__))
exec(open(os.path.join(here, "more_properties.py")).read()) if os.path.exists(os.path.join(here, "more_properties.py")) else None
with open(os.path.join(here, "..", "properties.jsonl"), "w") as fh:
    for r in rows:
        fh.write(json.dumps(r) + "\n")
print(len(rows))
