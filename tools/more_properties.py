# ---------- added while the model grew ----------
P("the equations of motion are defined on the operating range",
  "For a satellite with non-zero mass and known torquer types, vector_field returns a derivative at every state with geodetic height from 250 to below 500 km that is not at the sun and has a non-zero velocity relative to the air, for all commands; outside of those heights it raises.",
  "all satellites, states and commands", "A continuum of states; division by zero or a missing branch can hide anywhere.", A(DYN,"Dynamics.vector_field")+A(ENV,"OrbitalEnvironment"))
P("product moments are left out only of a reduced model",
  "Satellite uses the product moments of inertia it is given unless it is told that the model is reduced.",
  "all satellites", "All configurations; a test with zero products passes either way.", A(STR,"Satellite.__init__"))
P("detumbling currents brake the tumbling",
  "The currents MagnetorquerController.detumble returns, applied to the satellite's torquers in the measured field, do not increase the rotational energy about the commanded spin.",
  "all rates, fields, inertias and torquer axes", "A continuum of states; a sign or scale per component can be wrong in part of the space.", A(CON,"MagnetorquerController.detumble","MagnetorquerController.actuator_commands"))
P("bang-bang torquing rests at its reference",
  "In bang-bang mode the commanded currents are plus or minus the maximum or zero, and are zero when the wheels (or the rate) are at the reference.",
  "all states", "All histories of the hysteresis and all states.", A(CON,"MagnetorquerController.actuator_commands","MayhewTrigger"))
P("keep-out objects are given in body coordinates",
  "The objects that tracking hands to allowable_zone are directions in body coordinates, like the boresights they are compared with.",
  "all attitudes and positions", "The identity attitude hides a missing rotation.", A(CON,"ReactionWheelsController.__init__","ReactionWheelsController.tracking"))
P("staring commands the rate of the line of sight",
  "The rate reference of point_and_stare is the angular velocity of the line of sight to the target (without spin about it), in the coordinates of the reference attitude, and the reference attitude puts the boresight on the target.",
  "all positions, velocities, attitudes, boresights and targets", "A continuum of geometries; frames agree only when already aligned.", A(CON,"ReactionWheelsController.point_and_stare","ReactionWheelsController.acquire_target"))
P("the barbecue reference rolls with the clock",
  "When the clock ticks by dt, the reference attitude of induce_bbq_roll_attitude turns by rate * dt about the body z axis, and the z axis stays on the pole of the ecliptic.",
  "all clocks and steps", "Histories of ticks.", A(CON,"ReactionWheelsController.ecliptic_attitude","ReactionWheelsController.induce_bbq_roll_attitude"))
P("track_and_desaturate compensates the magnetic torque",
  "With the torquers' moment handed to track_and_desaturate, the angular acceleration under the magnetic torque is the one of tracking alone without it, and the wheels take up exactly the magnetic torque.",
  "all states, moments, fields and references", "A sign of a cross product over a continuum.", A(CON,"ReactionWheelsController.track_and_desaturate")+A(DYN,"Dynamics.vector_field"))
P("desaturation unloads the wheels without moving the body",
  "At rest in the commanded attitude, with the moment requested by desaturate, the body stays at rest and the excess wheel momentum does not grow, and it shrinks unless it lies along the field.",
  "all wheel speeds, fields and references", "Closed loop of two controllers and the dynamics over a continuum.", A(CON,"MagnetorquerController.desaturate","ReactionWheelsController.track_and_desaturate")+A(DYN,"Dynamics.vector_field"))
P("gains give the requested frequency and damping",
  "For rotations about one axis the closed loop with gains from (damping, nat_freq) is theta'' = -2 n^2 sin(theta/2) - 2 z n theta', whose linearisation is the oscillator with natural frequency n and damping ratio z.",
  "all axes, angles inside the hysteresis, rates, inertias", "A continuum of closed loops.", A(CON,"ReactionWheelsController.__init__","ReactionWheelsController.tracking"))
P("tracking follows moving references",
  "For a reference attitude that turns with a given rate and angular acceleration, the rate error of the closed loop obeys the same equation as for a reference at rest.",
  "all references, states and inertias", "Feed-forward terms vanish for the constant references a test uses.", A(CON,"ReactionWheelsController.tracking"))
P("the avoidance law follows its potential",
  "The power of the avoidance law is minus the rate of change of the potential 2 (1 - s q0) (alpha - sum k log psi), so that the closed loop loses energy only through damping.",
  "all attitudes, rates, instruments and objects", "A gradient identity over a continuum.", A(CON,"ReactionWheelsController.allowable_zone"))
P("mission data means the same to sender and controller",
  "The entries of mission data are used in the order in which the manager documents them (mode, target, boresight).",
  "all mission data", "A test that passes symmetric data cannot tell.", A(CON,"ReactionWheelsController.point_and_stare")+A(MANC,"ManagerDaemonInterface.mission_input"))
P("avoidance sets in continuously",
  "As an object comes near enough for an instrument to care about it, the output of allowable_zone changes continuously.",
  "all instruments, attitude errors and object directions", "A jump happens on a set of measure zero.", A(CON,"ReactionWheelsController.allowable_zone")+A(STR,"SensitiveInstrument.set_gains","SensitiveInstrument.cares_about"))
P("attitude filter propagation follows the kinematics",
  "propagate with a constant gyro rate turns the attitude estimate by the exact rotation |w - bias| * dt about w - bias.",
  "all estimates, rates and time steps", "Agrees at small steps and at the identity attitude; differs elsewhere on a continuum.", A(OBS,"DiscreteAttitudeStartrackerKalman.propagate","DiscreteAttitudeStartrackerKalman.state_transition"))
P("a star tracker reading moves the estimate by the Kalman gain",
  "A reading that differs from the estimate by a small rotation turns the estimate by the optimal fraction p / (p + sigma^2) of that rotation.",
  "all estimates, readings and variances", "Convergence hides a constant factor in the gain.", A(OBS,"DiscreteAttitudeStartrackerKalman.measurement","DiscreteAttitudeStartrackerKalman.reset"))
P("position filter's state object follows its estimate",
  "After propagate the state object of the position filter holds the same position and velocity as output returns.",
  "all filters and time steps", "Two copies of one value over all histories.", A(OBS,"DiscretePositionKalman.propagate","DiscretePositionKalman.output"))
P("position filter uses one motion model",
  "To first order in the time step, the matrix that propagates the covariance and the one that propagates the estimate agree on the effect of the velocity.",
  "all filters", "Derivatives of matrices at every state.", A(OBS,"DiscretePositionKalman.F_continuous","DiscretePositionKalman.state_transition","DiscretePositionKalman.propagate"))
P("the older manager handles every mode",
  "mission_input of system.manager returns in every mode, given a filter and controllers that work.",
  "all modes, commands and mission data", "Wrong arities show only on the branch that is taken.", A(MAN,"ManagerDaemonInterface.mission_input"))
P("filters are propagated by the durations asked for",
  "Over any history of KalmanFilters.propagate calls, the total time the attitude filter is propagated by stays within a fixed bound of the total duration.",
  "all histories of durations, all steps", "Drift shows only over long histories.", A(OBS,"KalmanFilters.propagate"))
P("propagating the filters succeeds",
  "Once output has been called, KalmanFilters.propagate returns and propagates both filters.",
  "all filters and durations", "Every duration; whether the failing branch is taken depends on it.", A(OBS,"KalmanFilters.propagate","DiscretePositionKalman.__init__"))
P("zeroing the wheels stops them",
  "Repeated zero_wheel_speeds slows every wheel by the greatest torque in each step, never overshoots zero, and has all wheels at rest after finitely many steps.",
  "all wheel speeds, inertias, limits and time steps", "The number of steps is unbounded in the speed.", A(FSW,"FlightSoftware.zero_wheel_speeds"))
P("wheel torques produce the requested body torque",
  "The torques of convert_torque_to_wheels react on the body with exactly the requested torque, and have the least norm among all wheel torques that do.",
  "all requested torques, all wheel geometries", "Optimality is over a continuum of alternatives.", A(FSW,"FlightSoftware.convert_torque_to_wheels","FlightSoftware.__init__")+A(BAS,"sim_main"))
P("axis, angle and quaternion agree in the simulation",
  "axis_angle_to_quaternion gives the unit quaternion of the right-handed rotation; get_rotation_angle_from_quaternion gives the angle back from 0 to 360 degrees, error_angle the smaller of it and its complement, and quat_to_axis the axis unless the sine of half the angle is below 1e-6, when it gives the x axis.",
  "all axes and angles", "Round trips over a continuum.", A(SQ,"axis_angle_to_quaternion","quat_to_axis","get_rotation_angle_from_quaternion","error_angle"))
P("rotation sequences mean what they document",
  "rotation_sequence_to_quaternion([x, y, z], order) is the rotation by the angles x, y and z about the body axes of those names, made in the given order.",
  "all angles and orders", "Orders agree on single rotations and differ on almost all others.", A(SQ,"rotation_sequence_to_quaternion"))
P("nadir quaternion points the body axis at the Earth",
  "For every non-zero position and body axis, get_nadir_pointing_quaternion returns a unit quaternion that turns the body axis to the direction of the centre of the Earth, exactly unless they are within 1e-8 of being parallel, and then to within 2e-8.",
  "all positions and body axes", "The parallel cases are a set of measure zero.", A(BAS,"get_nadir_pointing_quaternion"))
P("flight software runs without fault",
  "Over every history of non-zero star tracker readings, rates and wheel speeds, UpdateState never fails, commands no more than the greatest torque, and keeps the initial target or the second one; the target changes only when the reading is the target attitude and the rate is zero.",
  "all histories", "Unbounded histories.", A(FSW,"FlightSoftware.UpdateState","FlightSoftware.command_wheel_torques","FlightSoftware.check_hemi"))
P("the gain matrix stabilises its design model",
  "The gain of get_gain_matrix exists and drives the sampled design model to zero from every state; the sampled model is the exact solution of the continuous one under a constant torque.",
  "all inertias, time steps, weights and initial states", "Convergence of infinite sequences.", A(DSS,"get_gain_matrix"))
P("the gain matrix is optimal",
  "Over every horizon, the feedback with the gain has the least quadratic cost among all input sequences, and that cost is the quadratic form of the Riccati solution.",
  "all horizons, input sequences and initial states", "Optimality is over a continuum of alternatives of unbounded length.", A(DSS,"get_gain_matrix"))
P("the design model is that of the error the controller uses",
  "At the target, the vector part of quat_error(target, q) changes with the body rate as in the model the gain is designed for: by half of the rate.",
  "all targets, attitudes and rates", "A derivative at every attitude.", A(DSS,"get_gain_matrix")+A(SQ,"quat_error")+A(FSW,"FlightSoftware.quaternion_controller"))
P("integrator states accumulate the negative outputs",
  "add_integrators gives a system whose first states move as before and whose added states have the negative outputs as their rates.",
  "all matrices, states and inputs", "All shapes and values.", A(DSS,"add_integrators"))
P("the flight software turns towards its target",
  "At rest, the torque of the flight software accelerates the satellite towards its target, the shorter way.",
  "all errors below 180 degrees", "A simulation that ends at the target does not show which way it went.", A(FSW,"FlightSoftware.quaternion_controller","FlightSoftware.check_hemi","FlightSoftware.UpdateState")+A(SQ,"quat_error"))

P("repeated position readings are averaged",
  "A new position filter given any number of readings without propagation holds, on every axis, the mean of its initial state and the readings, with the initial state weighing sigma^2 readings; its covariance is diagonal with the variance of that mean; from any covariance N readings leave at most sigma^2/N of variance, and their order does not matter.",
  "all initial states, all lists of readings of any length",
  "Unbounded lists of real readings and their permutations.",
  A(OBS, "DiscretePositionKalman.update", "DiscretePositionKalman.__init__"))

P("repeated readings bring the position estimate to the true value",
  "If the same position and velocity are read again and again, the estimate converges to them from any positive definite covariance; from the initial covariance the error after N readings is sigma^2/(sigma^2+N) of the initial one, so that 10000 readings still leave a hundredth of it; readings on the same side of the Earth never make the filter raise.",
  "all initial states, readings and numbers of readings",
  "A limit over unboundedly many calls.",
  A(OBS, "DiscretePositionKalman.update"))

P("repeated star tracker readings reduce the attitude variance as 1/N and say nothing about the bias",
  "N star tracker readings in a row never raise, leave at most sigma^2/N of attitude variance whatever the covariance was and whatever was read, and the covariance left depends on their number only; a new filter given any number of them keeps a zero bias with its initial variance.",
  "all filter states and lists of readings of any length",
  "Unbounded lists of real readings.",
  A(OBS, "DiscreteAttitudeStartrackerKalman.measurement", "DiscreteAttitudeStartrackerKalman.reset"))

P("every position in space has geodetic coordinates",
  "For every position at least 6300 km from the centre of the Earth, ecef_to_lla does not raise; latitude is within 90 degrees on the side of the equator the position is on, longitude within 180 degrees, and the height lies between the distances to the enclosing and the enclosed sphere of the ellipsoid up to 400 m. A satellite state there can be constructed and updated at any time. At the centre of the Earth none can be.",
  "all positions at 6300 km or more, all clocks and states",
  "Continuum of positions; math.asin and math.acos raise on arguments that leave [-1, 1] by any amount.",
  A(FRA, "ecef_to_lla") + A(DYN, "SatelliteState.__new__", "SatelliteState.update"))

P("magnetorquer power is the ohmic loss of the coils",
  "The power of a magnetorquer system is the sum over its coils of resistance times current squared: never negative, zero only with every coil off, unchanged when the currents are reversed, quadratic in their scale and no larger for smaller currents. A torquer that was constructed always has a power; one of an unknown type raises.",
  "all systems of any number of constructed torquers, all currents",
  "Systems of any size and real currents.",
  A(STR, "Magnetorquer.__init__", "Magnetorquer.power", "MagnetorquerSystem.power"))

P("max_A limits the magnetorquer",
  "max_A is the maximum current a torquer is allowed to use: whatever current it is driven with, its moment does not exceed max_m, the moment at max_A.",
  "all types, axes, limits and currents",
  "Continuum of currents; a saturating rod reverses beyond 2.15 A.",
  A(STR, "Magnetorquer.__init__", "Magnetorquer.actuate"))

P("sync and set_datetime put the clock right",
  "JClock.sync returns by how many seconds the clock was behind, and ticking the clock by that number instead gives the same reading; a later sync reports the time between. set_datetime gives the reading of a new clock, or raises and leaves the clock alone. Neither touches absolute.",
  "all clocks, instants and calendar fields",
  "All instants of 9999 years in microseconds.",
  A(JD, "JClock.sync", "JClock.set_datetime", "JClock.tick"))

P("one call of the manager takes in data, commands and propagates",
  "ManagerDaemonInterface.propagate takes in the sensor data first, computes the commands from the estimate with that data, propagates both filters, and returns the commands and the estimate afterwards. It returns whenever its parts work.",
  "all managers, durations, modes, data, and histories of calls",
  "Histories of any length over real-valued states.",
  A(MANC, "ManagerDaemonInterface.sensor_input", "ManagerDaemonInterface.output", "ManagerDaemonInterface.propagate") + A(OBS, "KalmanFilters.output", "KalmanFilters.update", "KalmanFilters.propagate"))

P("the gyro bias is removed once",
  "KalmanFilters.propagate turns the attitude estimate by the gyro reading less the estimated bias.",
  "all filter states that calls can lead to, all readings",
  "Needs a history with a nonzero bias estimate, and a look at the rate inside.",
  A(OBS, "KalmanFilters.output", "KalmanFilters.propagate", "DiscreteAttitudeStartrackerKalman.propagate"))

P("a simulator's clock shows the time asked of that simulator",
  "After any sequence of calls of several simulators and ticks of their clocks, the clock of a simulator has advanced by the time that simulator was asked for.",
  "all programs over any number of simulators and clock objects, all sequences of calls, whole numbers of steps",
  "Depends on which objects share a clock and on the whole history of calls.",
  A(DYN, "SatelliteState.__new__", "SatelliteState.__add__", "Integrator.update", "Integrator.integrate") + A(JD, "JClock.tick"))

P("a simulator leaves the state it was given as it was",
  "The initial state handed to a simulator is only read: after any call it has the contents, the attributes and the clock reading it had.",
  "all initial states, step sizes and durations",
  "Aliasing between the caller's object and the simulator's over any number of steps.",
  A(DYN, "SatelliteState.__new__", "SatelliteState.__add__", "Integrator.update", "Integrator.integrate"))

P("the error of a step is of the order of dt^5",
  "One step of Integrator.RK4_step differs from the exact solution by at most a constant times the fifth power of the step, for smooth fields, including those that depend on the time.",
  "all step sizes, fields and states",
  "An order of convergence is a statement about all small step sizes at once.",
  A(DYN, "Integrator.RK4_step", "Integrator.update"))

P("ecef_to_lla inverts the WGS-84 ellipsoid",
  "For every geodetic latitude, longitude and height from 10 km below the surface of the WGS-84 ellipsoid upwards, ecef_to_lla of the position there returns the latitude within 5e-11 degrees, the longitude exactly (away from the poles) and the height within 1e-10 m. Every position on or outside the ellipsoid has such coordinates.",
  "all latitudes, longitudes and heights from -10 km up; all positions on or outside the ellipsoid",
  "An accuracy of a truncated series over a continuum, far below what sampled comparisons in floating point can show.",
  A(FRA, "ecef_to_lla"))

P("where avoidance acts, and that its push only brakes",
  "In a ReactionWheelsController, an instrument with an exclusion half-angle b below 90 degrees takes an object into account exactly when it is less than 180 - b degrees from the boresight. The extra push close to the bound never does work on the rate error, turns at right angles to the axis of the attitude error, has size nat_freq^2 per object, and is absent when the margin to every object is at least a quarter of the onset margin.",
  "all instruments, objects, attitude errors and rate errors",
  "Signs and thresholds over a continuum of attitudes, rates and directions.",
  A(CON, "ReactionWheelsController.__init__", "ReactionWheelsController.allowable_zone") + A(STR, "SensitiveInstrument.set_gains", "SensitiveInstrument.cares_about"))

P("get_gain_matrix always has an answer, one answer, and the answer stabilises",
  "For every invertible inertia, nonzero sampling time and nonzero error and rate limits, with or without integrators, the Riccati equation of get_gain_matrix has exactly one positive semidefinite solution, the inverse in the gain exists, and so exactly one gain matrix can be returned. With it the sampled model goes to zero from every state, and the warning about eigenvalues outside the unit circle is never printed. The sampled model with integrators is the exact solution of the continuous one.",
  "all invertible inertias, sampling times, limits, initial states, complex eigenvalues",
  "Existence and uniqueness of the solution of a matrix equation over a continuum of parameters, and a limit of infinite runs.",
  A(DSS, "get_gain_matrix", "add_integrators"))

P("what a constant disturbing torque leaves behind",
  "With the gain of get_gain_matrix(use_integrator=True), attitude error and rate go to zero from every state under every constant disturbing torque. With use_integrator=False the rate goes to zero, but the attitude error goes to a value that is zero only when the torque is.",
  "all invertible inertias, sampling times, limits, initial states and constant torques",
  "A limit of infinite runs for every disturbance.",
  A(DSS, "get_gain_matrix", "add_integrators"))

P("tracking brings the satellite to the commanded attitude",
  "With the wheel commands of ReactionWheelsController.tracking for an attitude at rest, with positive gains, and no object to be avoided near, the satellite's rate and its distance from the commanded attitude (up to the sign of the quaternion) fall off exponentially along every motion of the library's dynamics, from every attitude and rate, including those 180 degrees away. The sign switches a bounded number of times. Disturbing torques leave an error of the order of their size. Motions of every duration exist from every attitude and rate, and for every tolerance there is a time after which all motions from errors up to a given size are within it, whatever switches happen on the way.",
  "all satellites, gains, initial attitudes and rates, motions of any duration, bounded disturbing torques",
  "A limit over unbounded time from every initial state of a nonlinear system.",
  A(CON, "ReactionWheelsController.tracking", "ReactionWheelsController.actuator_commands", "MayhewTrigger.step", "MayhewTrigger.sign") + A(DYN, "Dynamics.vector_field"))

P("motion under the gravity model obeys Kepler's laws",
  "Along every motion with the acceleration of gravity_accel (without the oblateness terms), angular momentum, energy and eccentricity vector stay what they were; the satellite stays in a plane and on a conic with the centre of the Earth in a focus; with negative energy it stays between perigee a(1-e) and apogee a(1+e) and has the speed of the vis-viva law. With the oblateness terms the component of the angular momentum along the Earth's axis stays what it was. Such motions exist from every position but the centre.",
  "all motions on any interval of time, all initial positions and velocities",
  "Conservation along solutions of a differential equation, for all initial states and all times.",
  A(ENV, "Environment.gravity_accel", "OrbitalEnvironment.gravity_accel", "OrbitalEnvironment.hi_fi_gravity"))

P("the magnetic field is a static field in vacuum",
  "At each time OrbitalEnvironment.magnetic_field is, as a function of the inertial position, the gradient of a potential and has neither sources nor vortices: its Jacobian is symmetric and has trace zero.",
  "all times and all positions but the centre of the Earth",
  "A statement about derivatives at every point.",
  A(ENV, "OrbitalEnvironment.magnetic_field"))

P("the attitude estimators agree",
  "On exact observations of a unit quaternion with at least two directions that are not parallel, flae returns that attitude unless its last component is 0 (as for the identity), and then it does not return; where both are defined flae and triad_algorithm describe the same rotation; the order and the lengths of the observations do not matter to flae.",
  "all attitudes, numbers of observations, directions and weights that add up to 1",
  "Any number of observations over real-valued directions and attitudes.",
  A(ATT, "flae", "triad_algorithm"))

P("the position filter between fixes",
  "Predictions of DiscretePositionKalman.propagate without fixes stay in the orbital plane and keep the sense of the revolution. Equal steps of up to 10.5 s keep energy within 0.03 percent of a slowly decaying multiple of the initial one, however many they are; steps from 10.6 s up to 2000 s make it grow without bound. On the circular orbit of angular velocity sqrt(1.28e-6) rad/s a step of up to 10 s from the exact state has an error of at most 2e-6(dt^2+dt^4) m and 2e-6(dt+dt^3) m/s.",
  "all filter states with a nonzero angular momentum, all numbers of steps and durations",
  "Stability over runs of any length; the threshold lies between two step sizes that tests would not tell apart.",
  A(OBS, "DiscretePositionKalman.propagate", "DiscretePositionKalman.state_transition"))

P("what alignment of the barbecue roll means",
  "The reference of MagnetorquerController is the spin of 0.02932 rad/s about the body's z axis with the angular momentum to the north pole of the ecliptic, which is orthogonal to the sun up to the drift of the obliquity. A satellite that check finds aligned is in this spin.",
  "all satellites with positive definite inertia, all attitudes and rates, all dates",
  "A converse over all attitudes and rates; tests evaluate check only at aligned states.",
  A(CON, "MagnetorquerController.__init__", "MagnetorquerController.check") + A(SM, "State.BBQ_transition"))

P("the magnetic barbecue roll approaches the wanted spin",
  "While the torque asked for by MagnetorquerController.no_q_bbq_roll acts on a satellite, the sum of the squares of its two errors (momentum to the one wanted in the body, and to the one wanted in inertial coordinates) never grows, and stands still only when no magnetic torque can act on the error.",
  "all satellites, magnetic fields, attitudes and rates, motions of any duration",
  "A Lyapunov argument along all motions.",
  A(CON, "MagnetorquerController.no_q_bbq_roll", "MagnetorquerController.actuator_commands"))

P("every mode can be commanded from every other",
  "After any history of calls with members of State, every mode can be reached from the present one by at most four change_state requests that are all accepted, without passing through FAILED; get_next_mission returns the mission that was set last, and missions and states do not disturb each other.",
  "all histories of calls of any length, all target modes",
  "Reachability after every history, and a bound over all histories of requests.",
  A(SM, "StateMachine.change_state", "StateMachine.get_next_mission", "StateMachine.set_next_mission", "StateMachine.__init__"))

P("an unsafe satellite recovers by itself",
  "A satellite in UNSAFE that turns slowly, is aligned, has idle torquers and little momentum in its wheels gets back to SAFE by calls of StateMachine.transition.",
  "all sequences of sensor values of any length",
  "Quantifies over all numbers of calls and all sensor values.",
  A(SM, "StateMachine.transition", "State.UNSAFE_transition", "State.DETUMBLE_transition", "State.BBQ_transition"))

P("the error angle is a distance between attitudes",
  "error_angle(quat_error(q, r)) of the simulation is a distance between attitudes: it is zero only for the same attitude (C91), the same in both directions, at most 180 degrees, obeys the triangle inequality and does not change when both attitudes are turned alike; hemi does not change the attitude; the initial target of the simulation is the commanded angle away from its attitude.",
  "all non-zero quaternions, axes and angles from 0 to 360 degrees",
  "An inequality over triples of attitudes and an identity over the whole sphere.",
  A(SQ, "error_angle", "quat_error", "quat_mult", "hemi", "axis_angle_to_quaternion"))

P("the gain matrix does not depend on the body axes",
  "get_gain_matrix for body axes that are turned or mirrored returns the same controller written in the new axes, with or without integrators. For principal axes the three axes are controlled apart from each other, and with positive moments the torque opposes error and rate on every axis, with a damping above a quarter of the sampling time times the stiffness.",
  "all invertible inertias, orthogonal changes of axes, sampling times and limits",
  "Quantifies over all changes of axes and all inertias; needs uniqueness of the solution of a Riccati equation.",
  A(DSS, "get_gain_matrix", "add_integrators"))

P("the margins of one axis",
  "The transfer function of axis_margins is the loop of that axis in the continuous design model of a satellite with principal axes. With the gain of get_gain_matrix it has exactly one crossover, a phase margin strictly between 0 and 90 degrees and an infinite gain margin, so that every larger or smaller positive multiple of the gain keeps the loop stable, also with the sampling time for which it was designed.",
  "all positive principal moments, sampling times, limits, frequencies and multiples",
  "Quantifies over all frequencies and all multiples of the gain.",
  A("simulation/Stability Analysis.py", "axis_margins") + A(DSS, "get_gain_matrix"))

P("the transition methods decide as documented",
  "Called on a member of State with a mission, the transition method of that state returns the next state that the sensors call for (DETUMBLE while the rate is at least 0.05 rad/s, then BBQ; SAFE once aligned with idle torquers and slow wheels; POINT from the start of the mission; UNSAFE after its end; SLEEP once the wheels have stopped), and change_state accepts it.",
  "all states, sensor values and missions",
  "All combinations of sensor values, with exact thresholds.",
  A(SM, "State.SAFE_transition", "State.DETUMBLE_transition", "State.BBQ_transition", "State.UNSAFE_transition", "State.SPINDOWN_transition", "State.POINT_transition", "StateMachine.change_state"))

P("accuracy of whole simulations",
  "For equations of motion that do not depend on the time, such as those of vector_field with gravity and its gradient torque as the only forces, every sequence of calls of Integrator.update with a step that is short enough runs without an exception and stays within a constant times dt^4 of the exact motion, in every number of the state, up to any time to which the exact motion exists outside of the Earth.",
  "all satellites, starts, wheel accelerations, durations, steps below a bound, numbers of steps",
  "Needs the error of all step sizes and of all numbers of steps against the exact motion, which tests do not have.",
  A(DYN, "Integrator.update", "Integrator.RK4_step", "Dynamics.vector_field", "Dynamics.gravity_F_and_T"))

P("the law of noisy measurements",
  "With independent standard normal draws, the readings of one call of Dynamics.measurement(state, noisy=True) are independent of each other and of all later draws, and normal around the true value plus the mean given to the sensor, with the standard deviation given to the sensor; the gyro reads around the true rate plus the average of its last two biases, and the scalar part of the star tracker's quaternion is exact.",
  "all states away from the sun, sensor parameters and gyro biases; the law over all draws",
  "A statement about the joint distribution over infinitely many draws; a test sees a sample.",
  A(SEN, "Sensor.generate_noise", "Sensor.measurement", "StarTracker.generate_noise", "Gyro.generate_noise") + A(DYN, "Dynamics.measurement"))

P("gyro statistics do not depend on the step size",
  "The law of the simulated gyro's bias, and of the error of its integrated readings, depends on the elapsed time only and not on how it is divided into propagate calls: variance init_bias^2 + rrw^2 T for the bias, and init_bias^2 T^2 + arw^2 T + rrw^2 T^3/3 for the integrated error.",
  "all parameters, sequences of positive steps and true rates",
  "Quantifies over all divisions of time and over the distribution of all draws.",
  A(SEN, "Gyro.__init__", "Gyro.propagate", "Gyro.generate_noise"))

P("the mean of the gyro noise",
  "The average of a gyro reading over the draws is the true rate plus the arw_mean given to the constructor.",
  "all parameters, steps and states",
  "An average over infinitely many draws; the tests and examples only use the value 0.",
  A(SEN, "Gyro.__init__", "Gyro.propagate", "Gyro.generate_noise"))

P("the position filter's covariance is the covariance of its error",
  "If before a GPS reading the position filter's error has mean zero and the covariance that the filter reports, then after any number of update calls with readings whose noise is uncorrelated it still has, and no other linear correction by the reading leaves a smaller variance in any direction.",
  "all probability spaces, true states, covariances, numbers of readings, other gains and directions",
  "A statement about expectations over all noise, and a comparison with all other gains.",
  A(OBS, "DiscretePositionKalman.update", "DiscretePositionKalman.__init__") + A(SEN, "GPS_pos", "GPS_vel"))

P("the flight software settles on its target",
  "With the gain of get_gain_matrix, small attitude errors and rates about the target of the flight software die out, whatever the target attitude and the mounting of the star tracker, at least for one of the two quaternions of the attitude.",
  "all principal moments of inertia, weights, sampling times, targets, mountings and wheel speeds below the limit",
  "Needs the asymptotic behaviour of the sampled loop for all targets; the simulation is run with two of them, and shows an instability that its comment calls weird.",
  A(FSW, "FlightSoftware.UpdateState", "FlightSoftware.quaternion_controller", "FlightSoftware.convert_torque_to_wheels", "FlightSoftware.check_torque_vals") + A(SQ, "quat_error", "to_scalar_last") + A(DSS, "get_gain_matrix") + A(BAS, "sim_main"))

P("what moves the satellite",
  "In vector_field, the mass times the acceleration is the sum of the forces of drag, gravity and solar pressure, and the rate of change of the angular momentum in space is the sum of their torques and of the moment of the magnetorquers times the magnetic field; other currents change only the angular acceleration, by a torque across the field.",
  "all satellites, states with a unit quaternion, currents and wheel accelerations",
  "Continuum of states and commands; a test would repeat the formulas of the code, in the frame of the code.",
  A(DYN, "Dynamics.env_F_and_T", "Dynamics.vector_field"))

P("the true loop near the target",
  "The satellite of the simulation, a rigid body with reaction wheels that the flight software samples and commands, without approximation: from all starts near enough to the target, at rest and without total angular momentum, it stays near the target, at least for one of the two quaternions of the attitude, and where the linear loop settles it goes to the target in the end.",
  "all principal moments of inertia, wheel inertias, weights, sampling times, targets, mountings, starts and motions",
  "Needs all motions of a nonlinear system for all times; the simulation follows a few for a limited time.",
  A(FSW, "FlightSoftware.UpdateState", "FlightSoftware.quaternion_controller", "FlightSoftware.convert_torque_to_wheels", "FlightSoftware.check_torque_vals") + A(SQ, "quat_error", "to_scalar_last") + A(DSS, "get_gain_matrix") + A(BAS, "sim_main"))

P("the transition of the attitude filter is that of the true error",
  "DiscreteAttitudeStartrackerKalman.propagate moves the covariance by a matrix that is the derivative of the exact error motion: of two attitudes that turn at constant rates, the estimate at the reading minus the bias estimate and the truth at the reading minus the true bias, the small angles and the bias error after dt depend on the initial ones, to first order, by exactly this matrix.",
  "all unit estimates, readings, biases, time steps of any sign and length, and directions of the initial error; rate zero included",
  "A derivative of the solution of a differential equation in all directions, at all rates; no test computes it.",
  A(OBS, "DiscreteAttitudeStartrackerKalman.propagate", "DiscreteAttitudeStartrackerKalman.state_transition"))

P("the process noise of the attitude filter is that of the gyro",
  "For the simulated gyro with the densities that the filter assumes, the covariance that DiscreteAttitudeStartrackerKalman.propagate predicts without rotation is the covariance of the errors of the dead-reckoned attitude and of the bias.",
  "all histories of gyro readings, initial bias variances and means of the white noise; the covariance over all draws",
  "Compares a matrix with expectations over infinitely many draws.",
  A(OBS, "DiscreteAttitudeStartrackerKalman.propagate", "DiscreteAttitudeStartrackerKalman.state_transition") + A(SEN, "Gyro.__init__", "Gyro.propagate", "Gyro.generate_noise"))

P("the predicted covariance does not depend on the steps",
  "Without rotation, predicting n times over dt with DiscreteAttitudeStartrackerKalman.propagate gives the same covariance as predicting once over n dt.",
  "all filters, numbers of steps and step lengths",
  "Any number of steps; the tests do not call the filter.",
  A(OBS, "DiscreteAttitudeStartrackerKalman.propagate", "DiscreteAttitudeStartrackerKalman.state_transition"))

P("the uncertainty of the attitude filter settles",
  "With a star tracker reading followed by a prediction over dt, again and again at a constant corrected rate, the covariance of DiscreteAttitudeStartrackerKalman approaches one limit, whatever it was at first and whatever is read.",
  "all rates, time steps, initial covariances and sequences of readings",
  "A limit over unboundedly many steps from all initial covariances.",
  A(OBS, "DiscreteAttitudeStartrackerKalman.propagate", "DiscreteAttitudeStartrackerKalman.state_transition", "DiscreteAttitudeStartrackerKalman.measurement"))

P("the flight software answers every call",
  "Whichever messages of star tracker, gyro and wheels have come so far, UpdateState returns; from the start time of the controller on each call sends one message with the torques of the four wheels within the limit, before it none.",
  "all modules with a target, wheel inertia and time step, non-zero readings, times, messages that have come or not, and histories of calls",
  "Every combination of missing messages, start times and debug output over any number of calls; the simulation writes all messages first.",
  A(FSW, "FlightSoftware.__init__", "FlightSoftware.Reset", "FlightSoftware.UpdateState", "FlightSoftware.command_wheel_torques", "FlightSoftware.check_torque_vals"))

P("exact readings lead the attitude filter to the truth",
  "When the star tracker reads the attitude exactly and the gyro reads the rate plus a constant bias, again and again every dt, the estimates of DiscreteAttitudeStartrackerKalman converge to the attitude and to the bias, if they are close at first.",
  "all constant rates that the filter can tell from a bias, biases, time steps, attitudes, initial covariances and small initial errors",
  "A limit over unboundedly many steps of a nonlinear iteration from all nearby starts.",
  A(OBS, "DiscreteAttitudeStartrackerKalman.propagate", "DiscreteAttitudeStartrackerKalman.state_transition", "DiscreteAttitudeStartrackerKalman.measurement", "DiscreteAttitudeStartrackerKalman.reset"))

P("a normalised vector has length one in floating point",
  "In binary64 arithmetic, with the norm summed in any order, normalize returns a vector with components of at most 1 and the right direction up to the last bits, so that the unclipped acos of error_angle and the root in quat_to_axis get valid arguments; and the norm computed from a normalised quaternion is exactly 1, as rotation_sequence_to_quaternion asserts.",
  "all non-zero vectors of at most four floats, roundings to nearest and orders of summation with or without fused multiply-add",
  "All 2^64 values per component, and every way a BLAS may sum.",
  A(VEC, "normalize") + A(SQ, "normalize", "quat_mult", "quat_error", "quat_to_axis", "error_angle", "rotation_sequence_to_quaternion"))

P("saturation keeps the limit in floating point",
  "In binary64 arithmetic no component that saturation returns exceeds x_max, and a vector within the limit comes back unchanged.",
  "all arrays of floats, positive limits and roundings to nearest",
  "The excess of one unit in the last place shows for few pairs of floats.",
  A(VEC, "saturation") + A(STR, "ReactionWheelSystem.accelerations"))

P("the clock keeps time in floating point",
  "In binary64 arithmetic, ticking Clock by 60/k seconds keeps the displayed time right and rolls every minute, however often it is ticked; absolute is the number of ticks times the step.",
  "all dates, steps 60/k for k up to 5.9 million, numbers of ticks and roundings to nearest",
  "Rounding errors add up over unboundedly many ticks and meet a tolerance of 10 microseconds.",
  A(JD, "Clock.tick"))

P("Julian dates order the clocks",
  "In binary64 arithmetic the Julian date of a later JClock is greater.",
  "all pairs of clocks and roundings to nearest",
  "All pairs of instants; neighbouring microseconds are not tested.",
  A(JD, "JClock.julian_date"))

P("rotation sequences are accepted in floating point",
  "In binary64 arithmetic rotation_sequence_to_quaternion returns a unit quaternion for every three angles and every three axes, instead of raising AssertionError.",
  "all triples of floats, axes, roundings to nearest and orders of summation",
  "About one multi-axis sequence in fifty fails; which ones depends on the last bits of sines, products and sums.",
  A(SQ, "rotation_sequence_to_quaternion", "axis_angle_to_quaternion", "quat_mult", "normalize"))

P("integrate counts its steps in floating point",
  "In binary64 arithmetic integrate with the simulator's step 0.05 and a duration of k*0.05 makes exactly k updates.",
  "all numbers of steps, durations, updates and roundings to nearest",
  "The counter drifts by a rounding error per step; the first wrong count comes after 33 million steps.",
  A(DYN, "Integrator.integrate"))

P("the simulator's clock does not drift in floating point",
  "In binary64 arithmetic JClock.tick of a step written for k microseconds advances the clock by exactly k microseconds, so that n ticks make n*k, and integrate over a duration of up to 83 hours moves the clock by exactly the duration.",
  "all whole microseconds up to 71 years, clocks, numbers of ticks and roundings to nearest",
  "A drift would be one microsecond in unboundedly many ticks.",
  A(JD, "JClock.tick") + A(DYN, "Integrator.integrate"))

P("noisy observations lead flae to the best attitude",
  "With non-negative weights that add up to 1 and observations that do not agree exactly, if one attitude explains them clearly better (in Wahba's sense) than all that are half a turn away from it, flae returns an attitude close to it; errors of the sensors move it by no more than about their own size divided by the margin.",
  "all numbers of observations, directions, weights, sensor errors and best attitudes",
  "Real-valued errors of any number of sensors; the failing attitudes are a thin set that contains the identity.",
  A(ATT, "flae"))

P("only the ratios of the weights matter to flae",
  "Multiplying all weights by the same positive number does not change what flae returns.",
  "all exact observations, weights and factors",
  "All real factors; Newton's method may find another root of the quartic.",
  A(ATT, "flae"))

P("the barbecue roll shares the sun among the sides",
  "With the attitude given by ecliptic_attitude the sun direction of SRP_info lies in the plane of the body's x and y axes, up to 0.0003, at any date within a century of 2000 and any position within 10000 km of the earth's centre; and over one turn of the roll (as a function of the clock's absolute) all panels standing on that plane get the same mean light, 1/pi of that of a panel facing the sun.",
  "all dates, positions, panel directions and sun directions",
  "Dates, positions and panel directions are continuous; the mean is an integral.",
  A(CON, "ReactionWheelsController.ecliptic_attitude") + A(ENV, "Environment.SRP_info"))

P("the angle of the sun to the orbit decides about eclipses",
  "At a given time SRP_info reports a shadow somewhere on a circular orbit of radius r if and only if r times the sine of the angle between the sun and the plane of the orbit is less than the radius of the earth; and two places of the same radius that are both in shadow are less than 2*asin(R/r) apart, so that less than half of the orbit is.",
  "all orbital planes, radii from the earth's radius up to the distance of the sun, and dates",
  "The claim is about all points of an orbit and all orbits.",
  A(ENV, "Environment.SRP_info"))

P("spins about the extreme axes are stable and the middle one turns over",
  "For a satellite left alone (wheels at rest, no command, no torque) the dynamics keep every spin close to the axis of the smallest or of the largest principal moment there for ever, by explicit bounds; about the axis of the middle moment there are motions that start as close to the spin as wanted and later spin the opposite way.",
  "all satellites, principal moments, rates, closenesses and times",
  "For all time: the turning over can be delayed arbitrarily by starting closer to the axis.",
  A(DYN, "Dynamics.vector_field"))

P("detumbling removes the angular momentum",
  "If the moment that detumble asks for acts (or at least a fixed part of it, as when currents are limited), the angular momentum of the satellite dies out, whatever its moments of inertia, its first rates and the field.",
  "all satellites, motions, fields (of fixed or steadily turning direction and any strength) and times",
  "A limit for infinite time over all motions; along a fixed field nothing can be removed by any torquer command.",
  A(CON, "MagnetorquerController.detumble", "MagnetorquerController.actuator_commands") + A(DYN, "Dynamics.vector_field"))

P("desaturation brings the wheels to the speeds asked for",
  "While track_and_desaturate holds the satellite at rest in its attitude and the torquers have the moment that desaturate asks for (or at least a fixed part of it), the wheels come to the speeds asked for in a steadily turning field, whatever the wheels.",
  "all satellites, wheel systems, attitudes, first speeds, reference speeds, turning fields and times",
  "A limit for infinite time; a null motion of four wheels has no momentum and is never seen.",
  A(CON, "MagnetorquerController.desaturate", "ReactionWheelsController.track_and_desaturate") + A(DYN, "Dynamics.vector_field"))

P("the gravity gradient keeps the long axis towards the earth",
  "On a circular orbit flown at its own rate, with the wheels at rest, the gravity torque of the library keeps a satellite as it is when the axis of its smallest moment of inertia points along the vertical and that of its largest along the normal of the orbit: at all later times the rate relative to the orbit and the deviations of both axes stay below bounds set by their first values, and a first axis that starts on one side of the horizon with little enough energy stays on that side. With a larger moment about the vertical than about the direction of flight it does not: arbitrarily close to that attitude and rate there is a motion that turns this axis away by a right angle.",
  "all satellites with positive definite inertia, all circular orbits, all motions and all later times; the second part for all satellites with diagonal inertia on equatorial orbits above the equatorial radius",
  "A statement about all later times of a differential equation; a wrong sign or factor in the torque gives a torque of the right size at every tested attitude.",
  A(DYN, "Dynamics.gravity_F_and_T", "Dynamics.vector_field"))

P("the avoidance law keeps instruments out of their forbidden regions",
  "While tracking runs with avoidance on, no instrument ever enters a region about the sun or the earth that is forbidden to it (or leaves one it has to stay in), if the motion starts outside and the commanded attitudes are outside, whatever the commands' motion and whatever bounded torques disturb the satellite.",
  "all satellites and controllers made by their constructors, instruments whose bounds are not right angles, commanded motions, disturbances, states and durations",
  "The source says the law 'seems to work ok but needs proof'; no simulation covers all motions and disturbances, and the potential in the law is not that of its force.",
  A(CON, "ReactionWheelsController.allowable_zone", "ReactionWheelsController.tracking") + A(STR, "SensitiveInstrument.cares_about") + A(DYN, "Dynamics.vector_field"))

P("the avoidance law does not stop in front of the sun",
  "Tracking with avoidance brings the satellite to every commanded attitude outside the forbidden regions, from every start outside them; where attraction and repulsion are in balance the push takes it out.",
  "all satellites and controllers made by their constructors, half-angles, mountings, gains, commands and starts",
  "The balance is at isolated attitudes that no sampled start meets, and lasts for ever.",
  A(CON, "ReactionWheelsController.allowable_zone", "ReactionWheelsController.tracking") + A(DYN, "Dynamics.vector_field"))

P("the wheels keep within their greatest speed over whole runs",
  "In the simulated loop (samples, torques held between samples, rigid satellite with wheels) no wheel is ever faster than max_speed, if none is at the start.",
  "all gains of get_gain_matrix, targets, mountings, satellites, wheel inertias, sampling times, starts without total angular momentum, and all times",
  "The check predicts one wheel at a time over one interval; the speed that counts is the result of all wheels and the satellite over any number of intervals.",
  A(FSW, "FlightSoftware.check_torque_vals", "FlightSoftware.UpdateState"))

P("with nothing to correct the magnetorquers get no current",
  "When the wheels have exactly their reference speeds, desaturate returns three zero currents, and so does detumble for a gyro reading of zero, in every magnetic field.",
  "all finite nonzero fields, wheel momenta, inertia matrices with a positive diagonal, torquer types and greatest moments, and all roundings of the operations",
  "The result turns on the sign of a floating-point zero, which compares equal to the other zero: a test field with three positive components passes.",
  A(CON, "MagnetorquerController.actuator_commands", "MagnetorquerController.desaturate", "MagnetorquerController.detumble") + A(STR, "MagnetorquerSystem.distribute"))

P("the plotted error is the error at that time",
  "At the end of sim_main the curve of errors is drawn over the recorded times, and at each time it shows the angle of the error quaternion that the flight software computed last.",
  "all stop times, periods of the dynamics and of the flight software, and error quaternions",
  "The stretch by ten is a literal in the code while the two periods are parameters; the default run has the one ratio that fits.",
  A(BAS, "sim_main", "plot_rw_speeds"))

P("torque is given up only when the wheels cannot produce it",
  "When wheel torques within max_T exist that add up to a commanded torque, a torque-limited system delivers that torque in full: accelerations, put into torque, give it back.",
  "all arrangements of wheels that make a system, moments, limits and commands",
  "The pseudo-inverse minimises the sum of squares, not the largest wheel torque; the source leaves the other method open ('right now we don't care'). How much is lost is a question about all torques at once.",
  A(STR, "ReactionWheelSystem.__init__", "ReactionWheelSystem.accelerations", "ReactionWheelSystem.torque"))

P("a turn from rest is about one axis, through at most 215 degrees, and passes the command exactly if the damping is below 1",
  "From rest the tracking law turns the satellite about the fixed axis of the attitude error, never switches the sign of the error, and never gets farther from the command than at the start, which is less than 2 arccos(-0.3) (215 degrees) away. With damping of at least 1 the remaining angle only shrinks and never reaches zero or changes sign; with damping below 1 the satellite always passes the command.",
  "all controllers with positive damping and frequency, satellites with wheels of unlimited torque, commands, attitudes and memories of the trigger, all times",
  "The law is nonlinear and the turn is made in three dimensions: 'critical damping' is taken from the linearised system, and what the hysteresis gives up of the shortest path is seen in no single run.",
  A(CON, "MayhewTrigger.step", "ReactionWheelsController.__init__", "ReactionWheelsController.tracking") + A(DYN, "Dynamics.vector_field"))

P("orbits close after the time of Kepler's third law",
  "Position and velocity at one time determine the motion under gravity_accel. Without the oblateness terms, every motion with negative energy and some angular momentum can go on for ever, returns to its position with the same velocity after exactly 2 pi sqrt(a^3/MU), where a is the half-axis given by the energy, and does not return earlier.",
  "all motions on any interval of time, all initial positions and velocities",
  "A statement about exact solutions of the differential equation over whole orbits; a run of the simulator has the errors of its steps.",
  A(ENV, "Environment.gravity_accel", "OrbitalEnvironment.gravity_accel"))

P("satellites keep their energy in the high-fidelity field",
  "Along every motion outside of the Earth with the acceleration of hi_fi_gravity, kinetic energy plus the potential with the J2, J3 and J4 terms stays what it was.",
  "all motions on any interval of time",
  "The drift is a ten-thousandth of the exchanged energy or less; no test tolerates so little, and the orbit hides it for half a turn.",
  A(ENV, "Environment.hi_fi_gravity", "Environment.gravity_accel"))

P("the oblateness terms turn the planes of orbits as they should",
  "In the high-fidelity field the node of an orbit outside of the Earth moves westwards for satellites that go round with the Earth, eastwards for those that go against it and not at all for polar orbits, at all times at which the satellite is at least 0.002 of its distance away from the plane of the equator; averaged over a circular orbit it moves by -3/2 J2 (R/r)^2 n cos i, up to 0.6 percent of this.",
  "all motions, all radii and inclinations",
  "The sign at every moment and the mean over an orbit for all orbits at once; the wrong signs of J3 and J4 (C49) could have spoiled both.",
  A(ENV, "Environment.hi_fi_gravity", "Environment.gravity_accel"))

P("the motion that a simulation approximates exists, is the only one and can be played backwards",
  "The equations of motion of vector_field under gravity and its gradient torque have at most one solution through each state; along every orbit outside of the Earth the solution, with attitude, body rate and wheel speeds, exists as long as the orbit does, whatever the rates. For the central field and an orbit with its perigee outside of the Earth it exists for all times, and up to any time every simulation with a step that is short enough runs through and is within a constant times dt^4 of it. With velocities, body rate and wheel speeds reversed the motion is retraced.",
  "all satellites, states with unit quaternions, constant wheel accelerations, durations",
  "Existence for all times is about the unbounded nonlinear gyroscopic terms; a test sees finitely many steps of an approximation and cannot tell whether there is a motion that it approximates.",
  A(DYN, "Dynamics.vector_field", "Dynamics.gravity_F_and_T", "Integrator.RK4_step", "Integrator.update") + A(ENV, "Environment.gravity_accel", "OrbitalEnvironment.gravity_accel"))

P("a reading that is no attitude does not drive the wheels",
  "When the star tracker reports a quaternion of zeros or one with nan or an infinity in it, or the gyro reports nan, UpdateState commands no torque to the wheels.",
  "all floats for the readings, the gains and the limits, nan and infinities included, all roundings, all histories",
  "nan passes through every comparison with an answer that no test with numbers sees, and the order of the arguments of min and max decides what becomes of it.",
  A(FSW, "FlightSoftware.UpdateState", "FlightSoftware.check_torque_vals", "FlightSoftware.check_hemi", "FlightSoftware.quaternion_controller", "FlightSoftware.convert_torque_to_wheels") + A(SQ, "normalize", "quat_mult", "quat_error", "error_angle"))

P("without a measurement the magnetorquers get no current",
  "When the magnetometer reports zeros or nan, the gyro reading of detumble or a wheel speed of desaturate is nan, no torquer is commanded a current, whether the controller is bang-bang or not.",
  "all floats for the readings, all torquers, all roundings, all histories of a bang-bang controller",
  "nan compares as false with everything, so that the memory of a trigger and the limit of the moment depend on where it stands.",
  A(CON, "MagnetorquerController.actuator_commands", "MagnetorquerController.desaturate", "MagnetorquerController.detumble", "MayhewTrigger.step", "MayhewTrigger.sign") + A(STR, "MagnetorquerSystem.distribute", "ReactionWheelSystem.momentum"))

P("a bad reading does not spoil the attitude filter for good",
  "When the star tracker or the gyro reports nan once, later readings that are numbers lead DiscreteAttitudeStartrackerKalman back to an estimate that is a number; and a star tracker reading of zeros is not taken for a measurement.",
  "all floats for the readings, all roundings, all filters and sequences of measurement and propagate",
  "That nothing brings the estimate back is a statement about all later sequences of calls; the zero quaternion is only seen in the covariance, which looks like after a good measurement.",
  A(OBS, "DiscreteAttitudeStartrackerKalman.measurement", "DiscreteAttitudeStartrackerKalman.propagate", "DiscreteAttitudeStartrackerKalman.state_transition", "DiscreteAttitudeStartrackerKalman.reset") + A(QUA, "product", "error_quat", "xi") + A(VEC, "normalize"))

P("the sidereal angle is that of the almanac",
  "theta_gmst is the Greenwich mean sidereal time of the almanacs (IAU 1982) at the instant of the clock, as an angle, up to a microradian: for Clock from 1900 to 2099 and for JClock from 1800 to 2200, at all instants.",
  "all instants the clocks can hold in these years, fractions of seconds included",
  "The repository evaluates the polynomial at midnight and adds the turn since then; that this is the almanac's polynomial at the instant, and what becomes of the fraction of a second, is about all instants. The test prints four whole hours.",
  A(JD, "Clock.gmst_seconds", "Clock.theta_gmst", "Clock.centuries_elapsed", "JClock.gmst_seconds", "JClock.theta_gmst", "JClock.centuries_elapsed"))

P("the attitude motions exist from every state",
  "From every attitude and every rate there is a motion of the satellite for all later times and only one: without torques, under gravity on a circular orbit, and under the moment that detumble asks for in any smooth field that is nowhere zero. In a field that turns steadily that motion comes to rest exponentially fast, whatever the tumble.",
  "all satellites that can be built, all attitudes, all rates, all smooth nonzero fields",
  "The statements about motions (C146, C179, C181) say something about a tumble only if there is a motion that starts with it; existence for all times from all states cannot be sampled.",
  A(CON, "MagnetorquerController.detumble", "MagnetorquerController.actuator_commands") + A(DYN, "Dynamics.vector_field", "Dynamics.gravity_F_and_T"))

P("margins with a delay can be relied on",
  "With delay_s, axis_margins finds the crossover where it is without, and a phase margin that is less by the crossover times the delay. With half of the sampling time for delay_s, as its comment suggests, every multiple of a gain of get_gain_matrix that is within the reported gain margin keeps the sampled loop stable.",
  "all positive principal moments, sampling times, limits, delays, frequencies and multiples",
  "Both the reported number and the true limit depend on the solution of a Riccati equation; that one exceeds the other in every design cannot be found out by trying designs.",
  A("simulation/Stability Analysis.py", "axis_margins") + A(DSS, "get_gain_matrix"))

P("the uncertainty of a predicted velocity depends on the time ahead",
  "However many calls of DiscretePositionKalman.propagate a time ahead is divided into, the covariance P stays below a bound that depends on the filter and that time only.",
  "all filters whose estimated orbit has angular momentum, all covariances, all times ahead, all numbers of calls",
  "A test runs one step size; the noise is added once per call, and what that does to the covariance as the calls get shorter is a limit over all numbers of calls.",
  A(OBS, "DiscretePositionKalman.propagate", "DiscretePositionKalman.state_transition", "DiscretePositionKalman.F_continuous"))

P("in a field that turns, the barbecue roll reaches the wanted spin",
  "On a satellite that is symmetric about its z axis, in a magnetic field that turns steadily in any plane, the moment that no_q_bbq_roll asks for brings every motion whose error is below that of a satellite at rest to the wanted spin: 0.02932 rad/s about the z axis, pointed to the pole of the ecliptic.",
  "all symmetric satellites, planes, rates and strengths of the field, all starts",
  "A statement about the limits of all motions of a nonlinear system with a torque that is missing along the field; whether some motion escapes the torque for ever is not seen in runs of finite length from sampled starts.",
  A(CON, "MagnetorquerController.no_q_bbq_roll", "MagnetorquerController.actuator_commands", "MagnetorquerController.__init__"))

P("detumbling works with commands that are held between samples",
  "When detumble is asked at regular intervals, and the moment it asks for is held until the next time, the angular momentum across a constant magnetic field dies out, whatever the satellite, the interval and the tumble it starts with.",
  "all satellites that can be built, all attitudes and rates at the start, all intervals, all fields, all numbers of samples",
  "The motion between the samples is that of a pendulum driven by an old measurement; that there is a rate at which nothing is ever gained is seen only when the rate and the interval match exactly, and that slower ones lose at every sample is a statement about all runs.",
  A(CON, "MagnetorquerController.detumble", "MagnetorquerController.actuator_commands", "MagnetorquerController.__init__") + A(DYN, "Dynamics.vector_field"))

P("estimates that were handed out stay as they were",
  "The arrays that DiscreteAttitudeStartrackerKalman.output returns keep their numbers, whatever is done with the filter and with other filters afterwards: a caller can collect them in a list, as examples/observer_example.py does with those of the position filter, and compare them later.",
  "all programs that create arrays and filters and call measurement and propagate on them in any order",
  "A test that compares an estimate right after it was returned sees nothing; whether an array is written to later depends on every later call of every filter that may refer to it.",
  A(OBS, "DiscreteAttitudeStartrackerKalman.output", "DiscreteAttitudeStartrackerKalman.reset", "DiscreteAttitudeStartrackerKalman.measurement", "DiscreteAttitudeStartrackerKalman.propagate", "DiscreteAttitudeStartrackerKalman.__init__"))

P("a position filter leaves the simulated satellite alone",
  "When a DiscretePositionKalman is made from the state object of a simulator, nothing that is done with the filter changes the position or any other part of the simulated satellite.",
  "all states, simulators, programs of integrate, update and propagate",
  "Whether the two refer to one object depends on the history of calls; the numbers written are plausible, since they are an estimate of the same position.",
  A(OBS, "DiscretePositionKalman.__init__", "DiscretePositionKalman.update", "DiscretePositionKalman.propagate") + A(DYN, "Integrator.update", "Integrator.integrate", "SatelliteState.update"))

P("tracking works with commands that are held between samples",
  "When tracking is asked at regular intervals, with no object to be avoided near, and the accelerations of the wheels that it asks for are held until the next time, the satellite comes to rest in the commanded attitude, up to the sign of its quaternion, whatever the satellite, the interval, its rate and the speeds of its wheels.",
  "all satellites that can be built, all positive damping ratios and natural frequencies, all commanded attitudes, all states at the start, all intervals, all numbers of samples",
  "A test runs a few intervals from a few states; that one choice of interval serves all states up to a bound, and that too long an interval leaves motions that get no command at any sample, are statements about all runs.",
  A(CON, "ReactionWheelsController.tracking", "ReactionWheelsController.actuator_commands", "ReactionWheelsController.__init__", "MayhewTrigger.step", "MayhewTrigger.sign") + A(DYN, "Dynamics.vector_field"))

P("tracking with wheels of limited torque",
  "With torque_limited wheels, however small the limit: tracking never speeds the satellite up beyond the larger of its energy at the start and a bound set by the gains; with any limit above zero the energy falls exponentially to that bound, and once the error is small enough for the angular momentum on board, the satellite converges to the commanded attitude exactly as with unlimited wheels. It cannot stop faster than the wheels' torque allows.",
  "all satellites with positive definite inertia, all limits, all positive gains, all commanded attitudes, all states at the start, all runs with any number of switches of the sign",
  "How much of the commanded torque is delivered changes at every instant with the state, and so does the direction of the gyroscopic torque that is left over; a test sees a few runs, of which a slow one says nothing about the limit.",
  A(CON, "ReactionWheelsController.tracking", "ReactionWheelsController.actuator_commands", "MayhewTrigger.step", "MayhewTrigger.sign") + A(STR, "ReactionWheelSystem.accelerations", "ReactionWheelSystem.torque") + A(VEC, "saturation") + A(DYN, "Dynamics.vector_field"))

P("the satellite of the examples",
  "helper.make_satellite and template_objects.make_satellite give the same satellite, the currents that the examples simulate are within the limits of its torquers, and the satellite can be pointed: its torque-limited wheels produce every torque up to 0.65 mN m, and a ReactionWheelsController with the damping of the manager turns it from rest to every commanded attitude.",
  "all commanded and initial attitudes, all torques, all runs of the closed loop",
  "That the examples run does not show that what they simulate is possible with the hardware they describe; pointing from every attitude with limited wheels is a statement about all runs.",
  A("examples/utility/helper.py", "make_satellite") + A("examples/utility/template_objects.py", "make_satellite") + A("examples/simulator_example.py", "make_satellite") + A(STR, "Satellite.__init__", "ReactionWheelSystem.__init__", "ReactionWheelSystem.accelerations", "MagnetorquerSystem.actuate") + A(CON, "ReactionWheelsController.tracking", "ReactionWheelsController.__init__"))

P("turns from rest reach the command whatever the torque limit",
  "A satellite with torque_limited wheels, however small the limit and whatever the positive gains of its ReactionWheelsController, that starts at rest and whose angular momentum with the wheels is zero, turns about one axis, never farther from the command than at the start, changes the sign of its command at most once, at the very start, and comes to rest in the commanded attitude exponentially. The rate of that does not depend on the angle to be turned.",
  "all satellites that can be built, all limits above zero, all positive gains, all commanded and initial attitudes, all memories of the trigger, all runs",
  "While the limit binds, the response is not that of the linear law that tests compare with, and whether a slow controller with an actuator that saturates converges from every angle is a statement about all runs; tests see a few.",
  A(CON, "ReactionWheelsController.tracking", "ReactionWheelsController.actuator_commands", "MayhewTrigger.step", "MayhewTrigger.sign") + A(STR, "ReactionWheelSystem.accelerations", "ReactionWheelSystem.torque") + A(VEC, "saturation") + A(DYN, "Dynamics.vector_field"))

P("the position filter follows the satellite while fixes keep coming",
  "A DiscretePositionKalman that gets a fix each second and predicts the next second in between never raises, forgets the error it started with, and stays near the satellite for ever: after each fix its error is at most a bounded number of standard deviations of a fix, in proportion to the errors of the fixes and to how far the acceleration of the satellite is from that of the filter's model of the motion.",
  "all numbers of seconds, all motions 6500 to 10000 km from the centre of the Earth, all initial errors up to some kilometres, all bounded errors of the fixes",
  "The gain changes with every call and depends on all earlier estimates, and the prediction of the estimate and that of its covariance use different matrices; that no sequence of them drifts off is a statement about runs of any length.",
  A(OBS, "DiscretePositionKalman.__init__", "DiscretePositionKalman.update", "DiscretePositionKalman.propagate", "DiscretePositionKalman.state_transition", "DiscretePositionKalman.F_continuous") + A("examples/observer_example.py", "__main__"))

P("a position filter is as good as its fixes",
  "A DiscretePositionKalman that starts at the true state of a satellite on a circular orbit and gets an exact fix each second is never further off than three standard deviations of a fix.",
  "all circular orbits of 6500 to 8300 km radius, all numbers of seconds",
  "That more measurements make an estimate better is taken for granted; the error that a model of the motion made for one orbit leaves on another is a property of the covariance after many steps, and a test on the orbit the constants were fitted to sees nothing.",
  A(OBS, "DiscretePositionKalman.__init__", "DiscretePositionKalman.update", "DiscretePositionKalman.propagate", "DiscretePositionKalman.state_transition", "DiscretePositionKalman.F_continuous"))

P("the tracking law does not rely on the exact inertia",
  "A ReactionWheelsController turns the satellite to the commanded attitude although the total_moment it was made with is not that of the satellite that flies: for each controller there is a tolerance such that every satellite whose inertia is within it is brought to rest in the command from every tumble, exponentially, and under disturbing torques to an error in proportion to them. However wrong the inertia is, the satellite is not spun up.",
  "all satellites that can be built, all positive gains, all inertias within the tolerance, all commands, all initial attitudes and rates, all runs with any switches of the sign",
  "The inertia that is configured is a measurement or an estimate, while simulations give the controller the exact one, so that the gyroscopic terms cancel; tests with the same object on both sides do not see what is left over, and its effect on convergence is a statement about all runs.",
  A(CON, "ReactionWheelsController.__init__", "ReactionWheelsController.tracking", "MayhewTrigger.step", "MayhewTrigger.sign") + A(STR, "Satellite.__init__", "ReactionWheelSystem.accelerations", "ReactionWheelSystem.torque", "ReactionWheelSystem.momentum") + A(DYN, "Dynamics.vector_field"))

P("tracking tolerates readings that are not exact",
  "A ReactionWheelsController turns the satellite to the commanded attitude although the attitude, rate and wheel speeds it is given are off: for each controller there is a tolerance such that with errors within it, whatever they do from call to call, the satellite comes exponentially within a distance of the command that is in proportion to the errors and to the disturbing torques, and the sign of the feedback switches finitely often. A gyro with a constant error leaves the satellite resting beside the command, by gamma / alpha times the error.",
  "all satellites that can be built, all positive gains, all half widths between 0 and 1, all bounds on the rate, the torques and the momentum of the wheels, all errors within the tolerance, all commands, all runs",
  "Noise enters the law through products of readings and through a switch that remembers; that no sequence of errors makes it chatter or drives it away is a statement about all noise signals, while tests use one sample of it or none.",
  A(CON, "ReactionWheelsController.__init__", "ReactionWheelsController.tracking", "MayhewTrigger.step", "MayhewTrigger.sign") + A(STR, "ReactionWheelSystem.accelerations", "ReactionWheelSystem.momentum") + A(DYN, "Dynamics.vector_field") + A(SEN, "Sensor.measurement", "StarTracker.generate_noise", "Gyro.generate_noise"))

P("tracking converges in simulations by the integrator",
  "In a simulation that asks a ReactionWheelsController for accelerations of the wheels, calls Integrator.update some times with them and goes on like that, the satellite comes to rest in the commanded attitude exponentially, to zero and not to a floor set by the step: for all tumbles up to a bound there are a step and a rate that serve them all, and the rate does not depend on the step. The wheels stay bounded and the sign of the feedback is not switched for ever. With disturbing torques the error is in proportion to them.",
  "all satellites that can be built, all positive gains, all half widths between 0 and 1, all commands, all numbers of steps per command and of commands, all states at the start up to a bound, all forces on the satellite and all torques up to a bound that may differ in every call of the vector field",
  "What is simulated are not the equations but the RK4 steps of SatelliteState.update with a normalisation after each; that their errors do not add up to a drift or an oscillation about the command is a statement about runs of any length, and a test sees runs of one length from one state.",
  A(DYN, "Integrator.update", "Integrator.RK4_step", "Dynamics.vector_field", "SatelliteState.update", "SatelliteState.__add__") + A(CON, "ReactionWheelsController.__init__", "ReactionWheelsController.tracking", "ReactionWheelsController.actuator_commands", "MayhewTrigger.step", "MayhewTrigger.sign") + A(STR, "ReactionWheelSystem.accelerations", "ReactionWheelSystem.momentum"))

P("the wheels can hold the satellite against its environment",
  "The torque that env_F_and_T gives is bounded for all attitudes, dates and places by the size of the box, its drag coefficient and absorption, its inertia, its distance from the Earth and its speed, and the moment of the magnetorquers. On the satellite of the examples in low orbits it is at most a quarter of a micronewton metre while the magnetorquers are off; its wheels can keep it at rest in every attitude, with magnetorquers of up to ten ampere square metres on.",
  "all satellites that can be built, all states with attributes that belong to their arrays, all dates, both gravity models, all currents, quaternions of any length",
  "The torques depend on attitude, date and place through the walls that are exposed, the shadow, the height and the turning field of the Earth; a test sees some of these, and the bound that pointing relies on is the worst case over all of them.",
  A(DYN, "Dynamics.env_F_and_T", "Dynamics.solar_F_and_T", "Dynamics.drag_F_and_T", "Dynamics.gravity_F_and_T", "Dynamics.vector_field") + A(STR, "Wall.srp_force", "Wall.drag_force", "Wall.center_of_pressure", "Wall.projected_area", "ReactionWheelSystem.accelerations") + A("examples/utility/helper.py", "make_satellite"))

P("near the command, tracking works whatever the inertia",
  "However wrong the inertia is that a ReactionWheelsController was made with, there is a neighbourhood of the commanded attitude at rest from which it brings the satellite that flies to the command exponentially, without ever switching the sign of the feedback; under disturbing torques the error that is left is in proportion to them. The neighbourhood is the same for all commands and for all speeds of the wheels.",
  "all satellites that can be built, all positive gains, all positive definite inertias of the satellite that flies, all half widths between 0 and 1, all commands, all small disturbances, all runs",
  "A controller tuned on the wrong inertia could oscillate with growing amplitude; that no pair of inertias makes it do so is a statement about all matrices, and a test takes one or two.",
  A(CON, "ReactionWheelsController.__init__", "ReactionWheelsController.tracking", "MayhewTrigger.step", "MayhewTrigger.sign") + A(STR, "Satellite.__init__", "ReactionWheelSystem.accelerations", "ReactionWheelSystem.torque", "ReactionWheelSystem.momentum") + A(DYN, "Dynamics.vector_field"))

P("a bad fix does not spoil the position filter for good",
  "When the GPS reports nan or an infinity once, in any component of position or velocity, later fixes that are numbers lead DiscretePositionKalman back to an estimate that is a number.",
  "all filters, all fixes with nan or an infinity somewhere, all later sequences of update and propagate with any arguments, any rounding of the arithmetic",
  "Receivers without a fix report such values now and then; whether the estimate recovers depends on all later calls, and tests feed the filter with numbers.",
  A(OBS, "DiscretePositionKalman.update", "DiscretePositionKalman.propagate", "DiscretePositionKalman.state_transition", "DiscretePositionKalman.F_continuous", "DiscretePositionKalman.output"))

P("errors of the measured directions lead to errors of the TRIAD attitude of the same size",
  "When triad_algorithm is given unit measurements that are off by at most eps from the directions r1, r2 as seen in the true attitude, and 2 eps is less than the sine of the angle between r1 and r2, it returns a unit quaternion whose sandwich differs from that of the true attitude by at most 6.5 eps / sine; nothing better than eps / sine holds. The first measured direction is reproduced exactly; the length of the second and its part along the first do not matter.",
  "all attitudes, all pairs of directions, all measurements within the bound except b1 == -r1",
  "The algorithm has two branches and divides by quantities that can be small; that it is as well conditioned as the problem is a statement about all errors and attitudes, while tests use exact or a few noisy directions.",
  A("src/oresat_adcs/functions/attitude_estimation.py", "triad_algorithm"))

P("point_and_stare brings the boresight to the target and keeps it there",
  "A satellite under point_and_stare turns its boresight to the target and then turns with the line of sight: the angle between them and the difference of the rates decrease exponentially, to zero when the direction of the target is fixed and otherwise to an error in proportion to the disturbing torque and to the acceleration of the line of sight.",
  "all satellites that can be built, all positive gains, all boresights, all targets and orbits whose line of sight turns slowly enough, all states at the start",
  "The reference moves and is computed anew in each call from the state, the feedback has a switch that remembers earlier manoeuvres, and convergence is a statement about all starts and all times; a test follows one pass of one target.",
  A(CON, "ReactionWheelsController.acquire_target", "ReactionWheelsController.point_and_stare", "ReactionWheelsController.tracking", "MayhewTrigger.step", "MayhewTrigger.sign") + A(DYN, "Dynamics.vector_field"))

P("errors of the known position spoil the aim in proportion to the distance",
  "When point_and_stare is called with a position and a velocity that are off, the attitude that it commands points the boresight beside the true target by at most twice the error of the position over the sum of the true and the assumed distance, whatever the attitude; at equal distances by exactly the error over the distance. The rate that it commands is off by at most the error of the velocity over the distance plus the speed times the error of the position over the product of the distances.",
  "all unit attitudes, unit boresights, positions, velocities and their errors, all targets except one exactly behind the boresight",
  "The commanded attitude is computed from an angle, an axis and a product of quaternions, each of which could amplify an error near special angles; that the composition never does is a statement about all geometries, and tests use the exact position.",
  A(CON, "ReactionWheelsController.acquire_target", "ReactionWheelsController.point_and_stare") + A(VEC, "pointing_vector", "R_axis_angle"))

P("as the readings become exact, so does tracking",
  "When a ReactionWheelsController is fed from a filter whose estimate converges, so that the errors of attitude, rate and wheel speeds stay within a tolerance and fade away, and the disturbing torques fade away too, then the satellite comes to rest exactly in the commanded attitude, and after some time the sign of the feedback never switches again.",
  "all satellites that can be built, all positive gains, all half widths between 0 and 1, all commands, all errors within the tolerance that tend to zero however slowly and in whatever way, all states at the start up to a bound on the rate",
  "A limit over infinitely many calls cannot be tested, and small errors at the wrong moment could switch the sign of the feedback again and again.",
  A(CON, "ReactionWheelsController.tracking", "MayhewTrigger.step", "MayhewTrigger.sign") + A(DYN, "Dynamics.vector_field"))

P("the angles of a rounded quaternion are computed, and in range",
  "In binary64 arithmetic _quat2equatorial never raises for a quaternion that normalize returned, although the sine of its declination can come out beyond 1; the angles that it returns are those of the rotation matrix of the quaternion up to 1e-14 (the sine of the declination; the points of the matrix to which right ascension and roll belong); right ascension and roll are in [0, 360) and the declination in [-90, 90].",
  "all non-zero quaternions of floats, all ways of breaking ties, all orders of summation in the norm, all arctangents within one unit in the last place",
  "Whether the last bits go the wrong way depends on the quaternion in no visible pattern, and the tolerance of the code is a guess; tests try a few quaternions.",
  A(QUA, "_quat2equatorial") + A(VEC, "normalize"))

P("a quaternion and its negative are tracked alike",
  "The attitudes q and -q are the same orientation, and tracking commands the same torque for either, and for either sign of the commanded quaternion. A satellite whose attitude determination changes the sign of the quaternion at any time still converges to the commanded attitude.",
  "all controllers, measurements, references, objects to be avoided and memories of the switch; all sequences of signs",
  "The error quaternion enters the law by a vector, by a scalar, and through a switch with hysteresis that remembers earlier calls; a test that negates one quaternion far from or near the command passes, and the case that fails is a band of attitudes far from the command.",
  A(CON, "ReactionWheelsController.tracking", "ReactionWheelsController.allowable_zone", "MayhewTrigger.step", "MayhewTrigger.sign") + A(QUA, "error_quat"))

P("the position filter is good enough to aim with",
  "When point_and_stare is given the position and velocity that DiscretePositionKalman has found from one GPS fix each second, the boresight it asks for is off the true target by at most the error of the filter over the distance, and the rate it asks for is off that of the line of sight in the same proportion. The error starts from that of the first guess and decreases by a factor 0.9975 in each second, to a floor given by the errors of the fixes and of the filter's model of the motion.",
  "all flights between 6500 and 10000 km from the centre, all fixes up to a bound on their errors, all first guesses within about 10 km, all numbers of seconds, all targets not behind the boresight, all attitudes",
  "Errors of the fixes pass through the gains of the filter, which depend on everything before, and then through the geometry of the target; a test runs one pass with one noise.",
  A(OBS, "DiscretePositionKalman.propagate", "DiscretePositionKalman.update", "DiscretePositionKalman.output") + A(CON, "ReactionWheelsController.acquire_target", "ReactionWheelsController.point_and_stare"))

P("signs that change keep the satellite from the command no longer than true signs",
  "When the attitude determination gives the quaternion with a sign of its own choice, another one after any time, a satellite under tracking settles on the commanded attitude within a time that depends only on the bound of the initial energy and on the tolerance, as it does when the signs are right.",
  "all controllers of the constructor with positive damping, all states at the start up to a bound on the energy, all sequences of signs of the attitude read and of the command, all memories of the switch, all durations",
  "The signs that do harm have to be chosen anew at each passage of the attitude half a turn away, for ever; no test with random or constant signs shows it, and none can run for ever.",
  A(CON, "ReactionWheelsController.tracking", "MayhewTrigger.step", "MayhewTrigger.sign") + A(QUA, "error_quat") + A(DYN, "Dynamics.vector_field"))

P("Reset makes the flight software start again",
  "After Reset the FlightSoftware module of the simulation sends, for the same readings, the same wheel torques as a newly made one, whatever was called before.",
  "all gain matrices, inverses of the wheel matrix, time steps and wheel inertias, all sequences of UpdateState and Reset before, all sequences of readings after",
  "What is left over of the past may show only under readings that come much later; tests start from new modules.",
  A(FSW, "FlightSoftware.Reset", "FlightSoftware.UpdateState", "FlightSoftware.__init__", "FlightSoftware.command_wheel_torques"))

P("noise parameters that cannot be used are refused when the sensor is made",
  "A list of sensors that the constructors accepted, and that can be read without noise, can also be read with noise; a negative standard deviation is refused by the constructor.",
  "all standard deviations and means, all states, all draws, all sequences of steps of the gyro",
  "The call that raises may come long after the constructor, only when noise is switched on, and tests use valid parameters; that the sign of arw_std_dev is never noticed is a statement about all histories.",
  A(SEN, "Sensor.__init__", "Sensor.generate_noise", "StarTracker.generate_noise", "Gyro.__init__", "Gyro.propagate") + A(DYN, "Dynamics.measurement"))
