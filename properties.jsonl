{"id": "C01", "title": "saturation bounds every component and keeps direction", "statement": "For every command vector x of any length >= 1 and every limit x_max >= 0, saturation(x, x_max) has all components of magnitude <= x_max, is a scalar multiple k*x with 0 <= k <= 1, k is the largest such factor, and a vector already inside the limit is returned unchanged.", "quantifier": "all vectors of all lengths, all non-negative limits", "why_tests_cant": "A test samples a few vectors; the bound and direction must hold for every length and every real command.", "anchors": ["src/oresat_adcs/functions/vector.py:saturation"]}
{"id": "C02", "title": "normalize yields a unit vector in the same direction", "statement": "For every non-zero array, normalize(q) has Euclidean norm 1 and is a positive multiple of q; the zero array is returned unchanged; normalize is idempotent; pointing_vector(p, t) is the unit vector for which p + d*u = t with d the distance.", "quantifier": "all arrays of all lengths", "why_tests_cant": "Continuum of inputs.", "anchors": ["src/oresat_adcs/functions/vector.py:normalize", "src/oresat_adcs/functions/vector.py:pointing_vector"]}
{"id": "C03", "title": "cross(v) is the cross-product matrix", "statement": "For all v, w: cross(v).dot(w) == np.cross(v, w), cross(v) is skew-symmetric, and quaternion.xi(q).dot(w) equals the quaternion product of q with the pure quaternion (0, w).", "quantifier": "all vectors and quaternions", "why_tests_cant": "Continuum of inputs.", "anchors": ["src/oresat_adcs/functions/vector.py:cross", "src/oresat_adcs/functions/quaternion.py:xi"]}
{"id": "C04", "title": "product is Hamilton's quaternion product", "statement": "quaternion.product(a, b) is exactly Hamilton's product with scalar part first: it is associative, bilinear, has unit (1,0,0,0), multiplies norms, and is not commutative.", "quantifier": "all triples of quaternions", "why_tests_cant": "Associativity and norm multiplicativity are universally quantified identities.", "anchors": ["src/oresat_adcs/functions/quaternion.py:product"]}
{"id": "C05", "title": "conjugate is the inverse of a unit quaternion", "statement": "For every unit q, product(q, conjugate(q)) == product(conjugate(q), q) == (1,0,0,0); conjugation reverses products and is an involution.", "quantifier": "all quaternions", "why_tests_cant": "Continuum of inputs.", "anchors": ["src/oresat_adcs/functions/quaternion.py:conjugate", "src/oresat_adcs/functions/quaternion.py:product"]}
{"id": "C06", "title": "sandwich is a proper rotation of coordinates", "statement": "For every unit quaternion q, v -> sandwich(q, v) is linear and preserves dot products, lengths and cross products, so it is a proper rotation; q and -q give the same rotation.", "quantifier": "all unit quaternions and all vectors", "why_tests_cant": "Continuum of inputs.", "anchors": ["src/oresat_adcs/functions/quaternion.py:sandwich"]}
{"id": "C07", "title": "sandwich_opp undoes sandwich", "statement": "For every unit quaternion q and vector v, sandwich_opp(q, sandwich(q, v)) == v == sandwich(q, sandwich_opp(q, v)).", "quantifier": "all unit quaternions and all vectors", "why_tests_cant": "Continuum of inputs.", "anchors": ["src/oresat_adcs/functions/quaternion.py:sandwich", "src/oresat_adcs/functions/quaternion.py:sandwich_opp"]}
{"id": "C08", "title": "frame composition", "statement": "Transforming first into frame p and then by q relative to p is the transformation of product(p, q): sandwich(product(p, q), v) == sandwich(q, sandwich(p, v)).", "quantifier": "all pairs of quaternions, all vectors", "why_tests_cant": "Order-of-composition mistakes agree on commuting samples.", "anchors": ["src/oresat_adcs/functions/quaternion.py:product", "src/oresat_adcs/functions/quaternion.py:sandwich"]}
{"id": "C09", "title": "error_quat measures the rotation from reference to current attitude", "statement": "For unit q, q_ref: product(q_ref, error_quat(q, q_ref)) == q, the result is a unit quaternion, its vector part is zero exactly when q = q_ref or q = -q_ref, and a vector in q_ref coordinates is carried by it to q coordinates.", "quantifier": "all pairs of unit quaternions", "why_tests_cant": "Continuum of inputs.", "anchors": ["src/oresat_adcs/functions/quaternion.py:error_quat"]}
{"id": "C10", "title": "axisangle_to_quat encodes the rotation by theta about r", "statement": "For every unit axis r and angle theta, axisangle_to_quat(r, theta) is a unit quaternion, sandwich_opp of it is the right-handed (active) rotation by theta about r given by Rodrigues' formula, and sandwich of it is the rotation by -theta.", "quantifier": "all unit axes, all angles", "why_tests_cant": "Continuum of inputs; sign conventions must hold everywhere.", "anchors": ["src/oresat_adcs/functions/quaternion.py:axisangle_to_quat", "src/oresat_adcs/functions/quaternion.py:sandwich", "src/oresat_adcs/functions/quaternion.py:sandwich_opp"]}
{"id": "C11", "title": "eulerangle_to_quat is the 3-2-1 yaw-pitch-roll rotation", "statement": "For all angles in degrees, eulerangle_to_quat(RA, dec, roll) is a unit quaternion equal to the product of the rotation by RA about z, then dec about y, then roll about x; turning any angle by 360 degrees leaves the attitude unchanged (the quaternion changes sign).", "quantifier": "all real angle triples", "why_tests_cant": "Continuum of inputs.", "anchors": ["src/oresat_adcs/functions/quaternion.py:eulerangle_to_quat"]}
{"id": "C12", "title": "equatorial angles round-trip", "statement": "Converting star-tracker angles to a quaternion with eulerangle_to_quat and back with _quat2equatorial returns the same right ascension, declination and roll (for RA, roll in [0,360) and |dec| < 90); the returned RA and roll lie in [0,360) and dec in [-90,90].", "quantifier": "all angle triples in the stated ranges", "why_tests_cant": "Continuum of inputs and branch cuts of arctan2.", "anchors": ["src/oresat_adcs/functions/quaternion.py:_quat2equatorial", "src/oresat_adcs/functions/quaternion.py:eulerangle_to_quat"]}
{"id": "C13", "title": "path_lift picks the closest representative", "statement": "path_lift(RA, dec, roll, q_ref) is one of the two quaternions of the measured attitude and is at least as close to q_ref (in metric) as the other, so its dot product with q_ref is non-negative; feeding angles shifted by 360 degrees gives the same answer unless the two representatives are equally close.", "quantifier": "all angles and reference quaternions", "why_tests_cant": "Continuum of inputs.", "anchors": ["src/oresat_adcs/functions/quaternion.py:path_lift", "src/oresat_adcs/functions/quaternion.py:metric"]}
{"id": "C14", "title": "inertial_to_ecef is a rotation about the pole", "statement": "At every clock reading, inertial_to_ecef(clock) is an orthogonal matrix of determinant 1 that fixes the z-axis and preserves lengths; a point fixed in ECEF moves eastward (right-handed about +z) in the inertial frame as the sidereal angle grows.", "quantifier": "all clock readings, all vectors", "why_tests_cant": "Continuum of inputs.", "anchors": ["src/oresat_adcs/functions/frame.py:inertial_to_ecef"]}
{"id": "C15", "title": "lvlh_to_inertial is a right-handed orthonormal frame", "statement": "For every position r and velocity v that are not parallel, lvlh_to_inertial(r, v) is orthogonal with determinant 1, its third column points to the Earth's centre and its second against the orbital angular momentum, and its first has positive component along v.", "quantifier": "all non-degenerate position/velocity pairs", "why_tests_cant": "Continuum of inputs.", "anchors": ["src/oresat_adcs/functions/frame.py:lvlh_to_inertial"]}
{"id": "C16", "title": "geodetic_to_ECEF lies on the ellipsoid and rises along the normal", "statement": "For all lat, long: the point of height 0 lies on the ellipsoid of revolution with the code's semi-axis and eccentricity, and increasing h moves the point along the outward unit surface normal by exactly h.", "quantifier": "all latitudes, longitudes, heights", "why_tests_cant": "Continuum of inputs.", "anchors": ["src/oresat_adcs/functions/frame.py:geodetic_to_ECEF"]}
{"id": "C17", "title": "ecef_to_lla respects the symmetries of the Earth and is exact on the equator and at the poles", "statement": "Mirroring a position in the equatorial plane negates latitude and keeps height; rotating it about the pole keeps latitude and height; on the equator latitude is 0 and height is the distance to the equatorial circle; on the polar axis latitude is +-90 degrees and height the distance to the pole.", "quantifier": "all positions", "why_tests_cant": "Universally quantified symmetry; tests sample.", "anchors": ["src/oresat_adcs/functions/frame.py:ecef_to_lla"]}
{"id": "C18", "title": "geodetic conversions are mutually inverse", "statement": "Converting (lat, long, h) to ECEF with geodetic_to_ECEF and back with ecef_to_lla returns the same (lat, long, h).", "quantifier": "all geodetic coordinates", "why_tests_cant": "Continuum of inputs; unit and constant mismatches can hide at sampled points such as lat = 0.", "anchors": ["src/oresat_adcs/functions/frame.py:geodetic_to_ECEF", "src/oresat_adcs/functions/frame.py:ecef_to_lla"]}
{"id": "C19", "title": "triad_algorithm reproduces the measured directions", "statement": "For unit reference r1 and unit measurement b1 (b1 != -r1) and non-degenerate second vectors, triad_algorithm returns a unit quaternion whose sandwich carries r1 exactly to b1 and the normal r1 x r2 to the direction of b1 x b2; with noise-free data it therefore carries r2 to b2.", "quantifier": "all admissible vector quadruples", "why_tests_cant": "Continuum of inputs.", "anchors": ["src/oresat_adcs/functions/attitude_estimation.py:triad_algorithm"]}
{"id": "C20", "title": "triad_algorithm reports degenerate input by returning False", "statement": "When r1 and r2 (or b1 and b2) are parallel, or b1 == -r1, triad_algorithm returns False instead of a meaningless array.", "quantifier": "all degenerate inputs", "why_tests_cant": "The identity test never holds for any input; a test on one degenerate input shows one case only.", "anchors": ["src/oresat_adcs/functions/attitude_estimation.py:triad_algorithm"]}
{"id": "C21", "title": "flae solves Wahba's problem for its weights", "statement": "For any number of weighted vector pairs, the matrix built by flae is symmetric, its quadratic form at a quaternion q is the weighted sum of b_k . sandwich(q, r_k), the quartic whose root it takes is the characteristic polynomial of that matrix, and when the root is exact and the pivots are non-zero the returned unit quaternion is an eigenvector for that root.", "quantifier": "all lists of weights and vector pairs of any length", "why_tests_cant": "Universally quantified polynomial identity over lists.", "anchors": ["src/oresat_adcs/functions/attitude_estimation.py:flae"]}
{"id": "C22", "title": "leap years and month lengths are Gregorian", "statement": "is_leap_year is true exactly for years divisible by 4 and not by 100, or by 400, and days_in_month gives the Gregorian month length for every month 1..12.", "quantifier": "all years and months", "why_tests_cant": "Unbounded years.", "anchors": ["src/oresat_adcs/classes/jday.py:Clock.is_leap_year", "src/oresat_adcs/classes/jday.py:Clock.days_in_month"]}
{"id": "C23", "title": "ticking a Clock keeps a valid calendar date", "statement": "Starting from a valid date and time, after any sequence of ticks the year/month/day/hour/minute fields are a valid Gregorian date and time of day and the cached leap flag matches the year.", "quantifier": "all valid starting times and all finite sequences of tick lengths", "why_tests_cant": "Unbounded histories.", "anchors": ["src/oresat_adcs/classes/jday.py:Clock.tick"]}
{"id": "C24", "title": "a Clock tracks elapsed time", "statement": "After any sequence of ticks the calendar reading equals the starting instant plus the total ticked time, and absolute equals that total.", "quantifier": "all starting times and all finite tick sequences", "why_tests_cant": "Rollover depends on the whole history of tick lengths; step sizes that do not hit the minute boundary are rarely sampled.", "anchors": ["src/oresat_adcs/classes/jday.py:Clock.tick"]}
{"id": "C25", "title": "Clock.is_after compares instants", "statement": "clock.is_after(date_time) is True exactly when the clock's date and time is at or after the given [Y,M,D,h,m,s].", "quantifier": "all pairs of valid dates", "why_tests_cant": "Field-wise comparison agrees with chronological order on many sampled pairs.", "anchors": ["src/oresat_adcs/classes/jday.py:Clock.is_after"]}
{"id": "C26", "title": "Clock.is_minutes_away is a look-ahead window", "statement": "clock.is_minutes_away(t, n) for 0 <= n < 60 is True exactly when t is still in the future and at most n minutes away.", "quantifier": "all clock readings, times and windows", "why_tests_cant": "Borrow logic across hour, day, month and year boundaries.", "anchors": ["src/oresat_adcs/classes/jday.py:Clock.is_minutes_away"]}
{"id": "C27", "title": "Julian date formula is the true Julian date", "statement": "For every Gregorian date from March 1900 to February 2100, Clock.julian_date gives the true Julian date (days counted by the calendar, fraction from the time of day), and it agrees with JClock.julian_date.", "quantifier": "all dates in the range of validity and all times of day", "why_tests_cant": "73,000 dates times a continuum of times; the error outside the range must be characterised for all years.", "anchors": ["src/oresat_adcs/classes/jday.py:Clock.julian_date", "src/oresat_adcs/classes/jday.py:JClock.julian_date"]}
{"id": "C28", "title": "JClock.tick advances time by dt", "statement": "JClock.tick(dt) moves the clock by dt rounded to a whole microsecond: for whole-microsecond dt, ticking is exact and tick(a); tick(b) equals tick(a+b); after any sequence of n ticks the reading differs from start plus the sum by at most n half-microseconds; a tick outside the datetime range raises and leaves the clock unchanged.", "quantifier": "all clocks, all tick sequences", "why_tests_cant": "Unbounded histories of real-valued steps.", "anchors": ["src/oresat_adcs/classes/jday.py:JClock.tick"]}
{"id": "C29", "title": "JClock order and differences are consistent", "statement": "is_after is a strict total order on instants, minutes_away is antisymmetric and additive, is_minutes_away(t, n) holds exactly when minutes_away(t) differs from n by less than one minute, julian_date is strictly increasing and a difference of one day is a difference of exactly 1.", "quantifier": "all pairs and triples of instants", "why_tests_cant": "Order axioms over all instants.", "anchors": ["src/oresat_adcs/classes/jday.py:JClock.is_after", "src/oresat_adcs/classes/jday.py:JClock.minutes_away", "src/oresat_adcs/classes/jday.py:JClock.is_minutes_away", "src/oresat_adcs/classes/jday.py:JClock.julian_date"]}
{"id": "C30", "title": "the absolute time counter counts elapsed seconds on every clock class", "statement": "For both clock classes, clock.absolute after any sequence of ticks is the sum of the tick lengths, since the BBQ-roll attitude is computed from it.", "quantifier": "all finite tick sequences, both clock classes", "why_tests_cant": "Histories; one class silently never updates the counter.", "anchors": ["src/oresat_adcs/classes/jday.py:Clock.tick", "src/oresat_adcs/classes/jday.py:JClock.tick", "src/oresat_adcs/classes/controller.py:ReactionWheelsController.ecliptic_attitude"]}
{"id": "C31", "title": "the two clock classes agree on sidereal time", "statement": "For the same date and whole-second time between March 1900 and February 2100, Clock and JClock give the same centuries_elapsed, gmst_seconds and theta_gmst, and theta_gmst always lies in [0, 2*pi).", "quantifier": "all dates in range and whole-second times", "why_tests_cant": "Two different formulas must agree everywhere.", "anchors": ["src/oresat_adcs/classes/jday.py:Clock.gmst_seconds", "src/oresat_adcs/classes/jday.py:JClock.gmst_seconds", "src/oresat_adcs/classes/jday.py:Clock.theta_gmst", "src/oresat_adcs/classes/jday.py:JClock.theta_gmst"]}
{"id": "C32", "title": "the sidereal angle advances with time", "statement": "Whenever a JClock advances by less than a minute, gmst_seconds advances by 1.0027... sidereal seconds per second of elapsed time.", "quantifier": "all instants and advances", "why_tests_cant": "Tests use whole-second times; the simulator steps by 0.05 s.", "anchors": ["src/oresat_adcs/classes/jday.py:JClock.gmst_seconds", "src/oresat_adcs/classes/jday.py:JClock.theta_gmst", "src/oresat_adcs/system/simulator.py:SimulatorDaemonInterface"]}
{"id": "C33", "title": "noise-free measurement is the true state", "statement": "For every sensor and state, measurement(state, noisy=False) equals the true value (position, velocity, attitude, rate, wheel speeds, body-frame magnetic field, body-frame sun vector) and consumes no randomness.", "quantifier": "all states, all random streams, all sensors", "why_tests_cant": "All states and generator states.", "anchors": ["src/oresat_adcs/classes/sensor.py:Sensor.measurement", "src/oresat_adcs/classes/sensor.py:GPS_pos", "src/oresat_adcs/classes/sensor.py:GPS_vel", "src/oresat_adcs/classes/sensor.py:StarTracker", "src/oresat_adcs/classes/sensor.py:Gyro", "src/oresat_adcs/classes/sensor.py:Wheel_vel", "src/oresat_adcs/classes/sensor.py:Magnetometer", "src/oresat_adcs/classes/sensor.py:SunSensor"]}
{"id": "C34", "title": "vector sensors report the rotated inertial vector", "statement": "For every unit attitude, the noise-free magnetometer reading has the magnitude of the inertial field and the noise-free sun sensor reading is a unit vector, each carried back to the inertial vector by sandwich_opp.", "quantifier": "all states with unit attitude", "why_tests_cant": "Continuum of inputs.", "anchors": ["src/oresat_adcs/classes/sensor.py:Magnetometer.true_value", "src/oresat_adcs/classes/sensor.py:SunSensor.true_value"]}
{"id": "C35", "title": "star tracker measurements are attitudes", "statement": "Every star tracker measurement of a unit attitude is a unit quaternion, noisy or not.", "quantifier": "all unit attitudes and noise draws", "why_tests_cant": "Any particular random draw is one sample.", "anchors": ["src/oresat_adcs/classes/sensor.py:StarTracker.generate_noise", "src/oresat_adcs/classes/sensor.py:Sensor.measurement"]}
{"id": "C36", "title": "gyro bias is a random walk", "statement": "After any sequence of propagate calls with positive steps the gyro's bias is the initial bias plus the sum of sqrt(dt_i) times the drawn increments, and a noisy reading is the true rate plus the average of the last two biases plus the scaled white noise.", "quantifier": "all step sequences and all draws", "why_tests_cant": "Histories and random draws.", "anchors": ["src/oresat_adcs/classes/sensor.py:Gyro.propagate", "src/oresat_adcs/classes/sensor.py:Gyro.generate_noise"]}
{"id": "C37", "title": "magnetorquer current command produces the commanded moment", "statement": "For each torquer type and every commanded moment in its range, driving the torquer with getCurrent(m) produces a moment along its axis within one part in a million of m.", "quantifier": "all torquer types, all moments in range", "why_tests_cant": "Continuum of inputs and hand-rounded constants.", "anchors": ["src/oresat_adcs/configuration/structure.py:Magnetorquer.actuate", "src/oresat_adcs/configuration/structure.py:Magnetorquer.getCurrent"]}
{"id": "C38", "title": "distribute never exceeds a torquer's maximum and keeps the direction of the moment", "statement": "For every commanded moment, the moment realised by distribute is a non-negative multiple (at most 1) of the command and no torquer is asked for more than its maximum moment.", "quantifier": "all commanded moments, all torquer sets", "why_tests_cant": "Sign combinations; a positive-octant test passes.", "anchors": ["src/oresat_adcs/configuration/structure.py:MagnetorquerSystem.distribute"]}
{"id": "C39", "title": "wheel allocation realises the commanded torque", "statement": "When the wheel axes span space and the torque limit is not active, the torque produced by the accelerations commanded for T is exactly T, with the smallest possible sum of squared wheel torques.", "quantifier": "all wheel sets spanning space, all torques", "why_tests_cant": "All geometries and torques.", "anchors": ["src/oresat_adcs/configuration/structure.py:ReactionWheelSystem.accelerations", "src/oresat_adcs/configuration/structure.py:ReactionWheelSystem.torque", "src/oresat_adcs/configuration/structure.py:Wheel.acceleration", "src/oresat_adcs/configuration/structure.py:Wheel.torque"]}
{"id": "C40", "title": "torque limiting respects each wheel's limit and keeps the torque direction", "statement": "With torque limiting on and max_T >= 0, no wheel is asked for more than max_T and the realised torque is k*T with 0 <= k <= 1, and k = 1 if no wheel is over its limit.", "quantifier": "all wheel sets spanning space, all torques, all limits", "why_tests_cant": "All geometries and torques.", "anchors": ["src/oresat_adcs/configuration/structure.py:ReactionWheelSystem.accelerations"]}
{"id": "C41", "title": "the null motion of the pyramid produces no torque", "statement": "For four wheels at equal inclination and azimuths 90 degrees apart, accelerating them by any multiple of (-1,1,-1,1) produces zero net torque and zero change of net wheel momentum, and these are the only accelerations producing no torque.", "quantifier": "all inclinations strictly between 0 and 90 degrees, all azimuths, all multiples", "why_tests_cant": "Continuum of geometries.", "anchors": ["src/oresat_adcs/configuration/structure.py:ReactionWheelSystem", "src/oresat_adcs/configuration/structure.py:ReactionWheelSystem.torque", "src/oresat_adcs/configuration/structure.py:ReactionWheelSystem.momentum", "src/oresat_adcs/system/manager_class.py:ManagerDaemonInterface.mission_input"]}
{"id": "C42", "title": "the inertia matrices are symmetric and invertible", "statement": "For positive principal moments and non-negative wheel moments with unit axes, the satellite's total and reduced inertia (without products of inertia) are symmetric positive definite, so construction succeeds, and products of inertia enter symmetrically as xy, xz, yz.", "quantifier": "all wheel sets and moments", "why_tests_cant": "All configurations.", "anchors": ["src/oresat_adcs/configuration/structure.py:Satellite.__init__", "src/oresat_adcs/configuration/structure.py:Wheel.__init__", "src/oresat_adcs/configuration/structure.py:ReactionWheelSystem.__init__"]}
{"id": "C43", "title": "exposed area of the box satellite", "statement": "For every direction v, the total projected area is sum of |v_i| times the area of the face pair normal to axis i: it is non-negative, even in v, positive for v != 0 when the faces have positive area, and only faces turned toward v contribute.", "quantifier": "all directions and box dimensions", "why_tests_cant": "Continuum of directions.", "anchors": ["src/oresat_adcs/configuration/structure.py:Wall.projected_area", "src/oresat_adcs/configuration/structure.py:Satellite.__init__", "src/oresat_adcs/classes/dynamics.py:Dynamics.area_and_cop"]}
{"id": "C44", "title": "aerodynamic and solar torque of a wall is its lever arm times its force", "statement": "For every wall and flow direction, the torque returned with a wall's force is the cross product of the wall's centroid (its centre of pressure) with that force.", "quantifier": "all walls and directions", "why_tests_cant": "Dimensional error invisible for unit areas.", "anchors": ["src/oresat_adcs/configuration/structure.py:Wall.drag_force", "src/oresat_adcs/configuration/structure.py:Wall.srp_force", "src/oresat_adcs/configuration/structure.py:Wall.center_of_pressure"]}
{"id": "C45", "title": "solar pressure pushes away from the sun", "statement": "For every wall, sun direction and non-negative pressure with absorption in [0,1], the solar force has non-positive component along the sun direction and is zero when the wall faces away.", "quantifier": "all walls and sun directions", "why_tests_cant": "Continuum of inputs.", "anchors": ["src/oresat_adcs/configuration/structure.py:Wall.srp_force"]}
{"id": "C46", "title": "relative velocity vanishes for an object moving with the atmosphere", "statement": "The velocity relative to the co-rotating atmosphere is v - omega x r for every position and velocity; in particular it is zero for a point rotating with the Earth.", "quantifier": "all positions and velocities", "why_tests_cant": "Sign errors vanish on the sampled axis.", "anchors": ["src/oresat_adcs/configuration/environment.py:Environment.relative_vel", "src/oresat_adcs/configuration/environment.py:OrbitalEnvironment.relative_vel"]}
{"id": "C47", "title": "atmospheric density decreases with height", "statement": "On 250-500 km the density is positive and strictly decreasing with height, at the base of each band it equals the tabulated base density, and outside that range the call raises instead of returning a number.", "quantifier": "all heights", "why_tests_cant": "Continuum of heights and band boundaries.", "anchors": ["src/oresat_adcs/configuration/environment.py:Environment.atmo_density", "src/oresat_adcs/configuration/environment.py:OrbitalEnvironment.atmo_density"]}
{"id": "C48", "title": "central gravity obeys the inverse square law", "statement": "Without high fidelity, gravity_accel points exactly to the Earth's centre with magnitude MU/r^2 at every non-zero position.", "quantifier": "all non-zero positions", "why_tests_cant": "Continuum of inputs.", "anchors": ["src/oresat_adcs/configuration/environment.py:Environment.gravity_accel", "src/oresat_adcs/configuration/environment.py:OrbitalEnvironment.gravity_accel"]}
{"id": "C49", "title": "high-fidelity gravity is the gradient of the zonal potential", "statement": "hi_fi_gravity is at every non-zero position the gradient of the geopotential with J2, J3, J4 zonal terms, so the simulated field is conservative.", "quantifier": "all non-zero positions", "why_tests_cant": "A derivative identity at every point.", "anchors": ["src/oresat_adcs/configuration/environment.py:Environment.hi_fi_gravity", "src/oresat_adcs/configuration/environment.py:OrbitalEnvironment.hi_fi_gravity"]}
{"id": "C50", "title": "the magnetic field is that of a rotating dipole", "statement": "At every position of length r the field magnitude lies between |m|/r^3 and 2|m|/r^3, the field is even in position, scales as the inverse cube, and co-rotates with the Earth.", "quantifier": "all positions and Earth angles", "why_tests_cant": "Continuum of inputs.", "anchors": ["src/oresat_adcs/configuration/environment.py:Environment.magnetic_field", "src/oresat_adcs/configuration/environment.py:OrbitalEnvironment.magnetic_field"]}
{"id": "C51", "title": "sun vector and shadow", "statement": "SRP_info returns a unit vector toward the sun, a positive pressure, and reports shadow for a satellite outside the Earth exactly when it lies in the anti-sunward cylinder of Earth's radius.", "quantifier": "all instants and positions", "why_tests_cant": "Continuum of inputs.", "anchors": ["src/oresat_adcs/configuration/environment.py:Environment.SRP_info", "src/oresat_adcs/configuration/environment.py:OrbitalEnvironment.SRP_info"]}
{"id": "C52", "title": "the two environment classes agree", "statement": "Environment's methods applied to a state's position, velocity, length, height and frame give the same result as OrbitalEnvironment's methods applied to the state.", "quantifier": "all states", "why_tests_cant": "Two copies of each formula must agree everywhere.", "anchors": ["src/oresat_adcs/configuration/environment.py:Environment", "src/oresat_adcs/configuration/environment.py:OrbitalEnvironment"]}
{"id": "C53", "title": "the current state is always one of the nine states", "statement": "After any sequence of change_state, set_next_mission and transition calls, get_current_state() returns a member of State.", "quantifier": "all call histories including arbitrary arguments", "why_tests_cant": "Unbounded histories and argument values.", "anchors": ["src/oresat_adcs/configuration/state_machine.py:StateMachine.change_state", "src/oresat_adcs/configuration/state_machine.py:StateMachine.get_current_state"]}
{"id": "C54", "title": "change_state follows the documented transition table", "statement": "change_state(new) returns True and moves to new exactly when the table allows the move - in particular BBQ to POINT is allowed, as it is for every other active state; otherwise it returns False and moves to FAILED.", "quantifier": "all state pairs, all histories", "why_tests_cant": "Every pair after every history.", "anchors": ["src/oresat_adcs/configuration/state_machine.py:StateMachine.change_state", "src/oresat_adcs/configuration/state_machine.py:StateMachine.__init__"]}
{"id": "C55", "title": "sleep is entered only through spindown", "statement": "In every history of calls with states as arguments, the machine enters SLEEP from another state only from SPINDOWN, and enters SPINDOWN from another state only from SAFE; from FAILED the only way out is UNSAFE.", "quantifier": "all call histories", "why_tests_cant": "Reachability over unbounded histories.", "anchors": ["src/oresat_adcs/configuration/state_machine.py:StateMachine.change_state"]}
{"id": "C56", "title": "automatic transitions do not fail the machine", "statement": "Called in any state with any sensor values and any mission, StateMachine.transition completes without an exception and never drives the machine to FAILED by itself.", "quantifier": "all states, sensor values and missions", "why_tests_cant": "All states and inputs.", "anchors": ["src/oresat_adcs/configuration/state_machine.py:StateMachine.transition", "src/oresat_adcs/configuration/state_machine.py:State.transition", "src/oresat_adcs/configuration/state_machine.py:State.DETUMBLE_transition", "src/oresat_adcs/configuration/state_machine.py:State.BBQ_transition", "src/oresat_adcs/configuration/state_machine.py:State.UNSAFE_transition", "src/oresat_adcs/configuration/state_machine.py:State.SAFE_transition", "src/oresat_adcs/configuration/state_machine.py:State.POINT_transition"]}
{"id": "C57", "title": "state changes are linearizable", "statement": "Under every interleaving of any number of threads calling change_state and set_next_mission, the result is that of executing the completed calls one at a time in the order in which they took the lock; readers see a state from that sequence.", "quantifier": "all interleavings of all thread programs", "why_tests_cant": "Schedules.", "anchors": ["src/oresat_adcs/configuration/state_machine.py:StateMachine.change_state", "src/oresat_adcs/configuration/state_machine.py:StateMachine.set_next_mission", "src/oresat_adcs/configuration/state_machine.py:StateMachine.get_current_state"]}
{"id": "C58", "title": "the lock is always released", "statement": "Whatever the arguments, when a call to change_state or set_next_mission ends - normally or by an exception - the lock is free again, so later calls are not blocked.", "quantifier": "all call histories and argument values", "why_tests_cant": "Exceptional exits after particular histories.", "anchors": ["src/oresat_adcs/configuration/state_machine.py:StateMachine.change_state", "src/oresat_adcs/configuration/state_machine.py:StateMachine.set_next_mission"]}
{"id": "C59", "title": "a transition decision is applied to the state it was computed from", "statement": "If the machine's transition method decides to move, the move is validated against the state the decision was made in, even when another thread changes the state concurrently.", "quantifier": "all interleavings", "why_tests_cant": "Schedules.", "anchors": ["src/oresat_adcs/configuration/state_machine.py:StateMachine.transition"]}
{"id": "C60", "title": "commands match the commanded mode", "statement": "After mission_input: SLEEP and FAILED command zero currents and wheel accelerations, DETUMBLE and POINT leave respectively wheels and torquers at zero, and every state that is not an active control mode (UNSAFE, SAFE, MANUAL) does not keep issuing the previous mode's commands.", "quantifier": "all modes, model states and previous commands", "why_tests_cant": "Stale commands depend on the history of modes.", "anchors": ["src/oresat_adcs/system/manager_class.py:ManagerDaemonInterface.mission_input"]}
{"id": "C61", "title": "spindown slows the wheels and stops", "statement": "In SPINDOWN the commanded wheel accelerations never increase wheel energy, act only on the null motion until that has died out, are zero once it has and the wheels are slow, and applied repeatedly with a small enough step bring the machine to the condition for SLEEP.", "quantifier": "all wheel speeds, all numbers of steps", "why_tests_cant": "Convergence over unbounded steps.", "anchors": ["src/oresat_adcs/system/manager_class.py:ManagerDaemonInterface.mission_input", "src/oresat_adcs/configuration/state_machine.py:State.SPINDOWN_transition"]}
{"id": "C62", "title": "the manager interfaces can be constructed", "statement": "ManagerDaemonInterface of system.manager and of system.manager_class can be constructed from the library's own dynamics model.", "quantifier": "all models", "why_tests_cant": "Every construction path.", "anchors": ["src/oresat_adcs/system/manager.py:ManagerDaemonInterface.__init__", "src/oresat_adcs/system/manager_class.py:ManagerDaemonInterface.__init__", "src/oresat_adcs/classes/observers.py:KalmanFilters.__init__"]}
{"id": "C63", "title": "the hysteretic sign", "statement": "A MayhewTrigger always answers +1 or -1; with half-width 0 its answer has the sign of every non-zero input; for inputs inside the half-width the answer never changes; with half-width >= 1 and inputs in [-1,1] it is constant.", "quantifier": "all initial values, half-widths and input histories", "why_tests_cant": "Unbounded input histories.", "anchors": ["src/oresat_adcs/classes/controller.py:MayhewTrigger"]}
{"id": "C64", "title": "hysteresis prevents chattering", "statement": "For every input history, between two consecutive changes of a MayhewTrigger's answer the input travels at least twice the half-width, so the number of changes is bounded by the total variation of the input divided by twice the half-width, plus one.", "quantifier": "all input histories", "why_tests_cant": "Unbounded input histories.", "anchors": ["src/oresat_adcs/classes/controller.py:MayhewTrigger.step"]}
{"id": "C65", "title": "magnetorquers realise the commandable part of the torque", "statement": "For every non-zero field B and commanded torque T, the moment computed before allocation is orthogonal to B and its torque on the satellite is the component of T orthogonal to B.", "quantifier": "all fields and torques", "why_tests_cant": "Continuum of inputs.", "anchors": ["src/oresat_adcs/classes/controller.py:MagnetorquerController.actuator_commands"]}
{"id": "C66", "title": "detumbling removes angular momentum", "statement": "For every non-zero field and rate, the torque asked for by detumble (before current limits) never increases the magnitude of the body's angular momentum and never increases its kinetic energy.", "quantifier": "all fields, rates and inertias", "why_tests_cant": "Continuum of inputs; the energy half depends on the inertia being spherical.", "anchors": ["src/oresat_adcs/classes/controller.py:MagnetorquerController.detumble"]}
{"id": "C67", "title": "BBQ roll alignment", "statement": "no_q_bbq_roll commands zero torque exactly when check reports perfect alignment, and desaturate commands zero when the wheels are at the reference speeds.", "quantifier": "all states", "why_tests_cant": "Continuum of inputs.", "anchors": ["src/oresat_adcs/classes/controller.py:MagnetorquerController.no_q_bbq_roll", "src/oresat_adcs/classes/controller.py:MagnetorquerController.check", "src/oresat_adcs/classes/controller.py:MagnetorquerController.desaturate"]}
{"id": "C68", "title": "acquire_target points the boresight at the target", "statement": "For unit attitude and unit boresight and a target different from the position, turning the body by acquire_target's rotation makes the boresight point at the target.", "quantifier": "all positions, attitudes, boresights and targets", "why_tests_cant": "The antiparallel case has measure zero and is not sampled.", "anchors": ["src/oresat_adcs/classes/controller.py:ReactionWheelsController.acquire_target", "src/oresat_adcs/functions/vector.py:R_axis_angle", "src/oresat_adcs/functions/vector.py:pointing_vector"]}
{"id": "C69", "title": "tracking control cancels gyroscopic torque and is stable", "statement": "Applying the wheel accelerations commanded by the tracking law (without avoidance, unlimited torque, no disturbance, constant attitude command) to the library's own dynamics, the energy-like function |w|^2/2 + 2*alpha*(1 - s*q0) has derivative -gamma*|w|^2, and a switch of the hysteretic sign strictly decreases it.", "quantifier": "all attitudes, rates, wheel speeds, inertias and gains", "why_tests_cant": "Continuum of states; a Lyapunov identity.", "anchors": ["src/oresat_adcs/classes/controller.py:ReactionWheelsController.tracking", "src/oresat_adcs/classes/controller.py:ReactionWheelsController.actuator_commands", "src/oresat_adcs/classes/dynamics.py:Dynamics.vector_field"]}
{"id": "C70", "title": "tracking works with the shipped environments", "statement": "ReactionWheelsController.tracking returns a torque for every state when the model uses one of the library's environment classes.", "quantifier": "all states, both environments", "why_tests_cant": "Every call path.", "anchors": ["src/oresat_adcs/classes/controller.py:ReactionWheelsController.__init__", "src/oresat_adcs/classes/controller.py:ReactionWheelsController.tracking", "src/oresat_adcs/configuration/environment.py:OrbitalEnvironment"]}
{"id": "C71", "title": "avoidance term is well defined and reduces to plain feedback", "statement": "allowable_zone evaluates the logarithm only at positive arguments for every state, and when no instrument is near an object it cares about it equals the plain attitude feedback.", "quantifier": "all states, instruments and objects", "why_tests_cant": "All geometries including violated constraints.", "anchors": ["src/oresat_adcs/classes/controller.py:ReactionWheelsController.allowable_zone", "src/oresat_adcs/configuration/structure.py:SensitiveInstrument"]}
{"id": "C72", "title": "attitude kinematics preserve the quaternion norm", "statement": "The attitude derivative returned by vector_field is orthogonal to the attitude at every state, and after every Integrator.update the attitude is a unit quaternion (unless it was numerically annihilated to zero).", "quantifier": "all states and step histories", "why_tests_cant": "Unbounded histories.", "anchors": ["src/oresat_adcs/classes/dynamics.py:Dynamics.vector_field", "src/oresat_adcs/classes/dynamics.py:Integrator.update"]}
{"id": "C73", "title": "rotational dynamics conserve angular momentum", "statement": "Without environment torque the total angular momentum of body plus wheels, expressed in the inertial frame, has zero derivative along vector_field for every wheel command; with environment torque its derivative is that torque.", "quantifier": "all states, inertias and wheel commands", "why_tests_cant": "Continuum of states; a derivative identity.", "anchors": ["src/oresat_adcs/classes/dynamics.py:Dynamics.vector_field"]}
{"id": "C74", "title": "wheel speeds integrate commands exactly", "statement": "After integrate with held commands, wheel speeds have changed by exactly (number of steps)*dt*acceleration, whatever the rest of the state does, and position's first difference uses the classical fourth-order Runge-Kutta combination.", "quantifier": "all states, commands and durations", "why_tests_cant": "Unbounded number of steps.", "anchors": ["src/oresat_adcs/classes/dynamics.py:Integrator.RK4_step", "src/oresat_adcs/classes/dynamics.py:Integrator.integrate"]}
{"id": "C75", "title": "integrate takes the expected number of steps", "statement": "For dt of at least 1 ms and a duration of n*dt, integrate performs exactly n steps and advances the clock n times by dt (for dt of at least 2 ms also when the duration is up to 1 ms off); integrating n*dt then m*dt equals integrating (n+m)*dt; it always ends for positive dt and raises for other dt.", "quantifier": "all step sizes and durations", "why_tests_cant": "Unbounded loop counts.", "anchors": ["src/oresat_adcs/classes/dynamics.py:Integrator.integrate", "src/oresat_adcs/system/simulator.py:SimulatorDaemonInterface"]}
{"id": "C76", "title": "the simulator uses the step size it is given", "statement": "SimulatorDaemonInterface(model, state, dt) integrates with step dt, and propagate(duration) advances the simulated time by duration.", "quantifier": "all step sizes and durations", "why_tests_cant": "All values of dt and duration.", "anchors": ["src/oresat_adcs/system/simulator.py:SimulatorDaemonInterface.__init__", "src/oresat_adcs/system/simulator.py:SimulatorDaemonInterface.propagate"]}
{"id": "C77", "title": "gravity-gradient torque", "statement": "The gravity torque is orthogonal to the local vertical, vanishes when the vertical is a principal axis (in particular for spherical inertia), and is unchanged under position -> -position.", "quantifier": "all states and inertias", "why_tests_cant": "Continuum of states.", "anchors": ["src/oresat_adcs/classes/dynamics.py:Dynamics.gravity_F_and_T"]}
{"id": "C78", "title": "drag dissipates energy", "statement": "For every state at which density is defined and the relative velocity is non-zero, the drag force is a non-positive multiple of the relative velocity expressed in the inertial frame.", "quantifier": "all states", "why_tests_cant": "Continuum of states.", "anchors": ["src/oresat_adcs/classes/dynamics.py:Dynamics.drag_F_and_T"]}
{"id": "C79", "title": "solar torque follows the body attitude", "statement": "The solar force and torque depend on the sun direction as seen from the body: two states differing only in attitude with the same body-frame sun vector have the same body-frame torque, and in shadow both are zero.", "quantifier": "all states", "why_tests_cant": "Continuum of states.", "anchors": ["src/oresat_adcs/classes/dynamics.py:Dynamics.solar_F_and_T"]}
{"id": "C80", "title": "satellite state attributes are consistent with the array", "statement": "After construction with a clock, addition or update(), the attributes position ... wheel_vel, length, r_ecef and geodetic coordinates are those of the array contents and clock; assigning an attribute does not change the array; construction without a clock raises.", "quantifier": "all states and mutation histories", "why_tests_cant": "Aliasing histories.", "anchors": ["src/oresat_adcs/classes/dynamics.py:SatelliteState"]}
{"id": "C81", "title": "attitude filter covariance stays symmetric positive definite", "statement": "After any sequence of propagate (dt > 0) and measurement calls the attitude filter's covariance is symmetric positive definite, a measurement never increases it, and the matrix inverse in measurement never fails.", "quantifier": "all measurement and gyro histories", "why_tests_cant": "Unbounded histories of real inputs.", "anchors": ["src/oresat_adcs/classes/observers.py:DiscreteAttitudeStartrackerKalman.measurement", "src/oresat_adcs/classes/observers.py:DiscreteAttitudeStartrackerKalman.propagate", "src/oresat_adcs/classes/observers.py:DiscreteAttitudeStartrackerKalman.state_transition"]}
{"id": "C82", "title": "attitude filter outputs unit quaternions", "statement": "The attitude estimate of the filter is a unit quaternion after every propagate and every measurement.", "quantifier": "all histories", "why_tests_cant": "Unbounded histories.", "anchors": ["src/oresat_adcs/classes/observers.py:DiscreteAttitudeStartrackerKalman.propagate", "src/oresat_adcs/classes/observers.py:DiscreteAttitudeStartrackerKalman.state_transition", "src/oresat_adcs/classes/observers.py:DiscreteAttitudeStartrackerKalman.reset"]}
{"id": "C83", "title": "attitude filter treats q and -q alike", "statement": "A star tracker reading of the estimated attitude itself leaves estimate and bias unchanged, and readings q and -q, which are the same attitude, have the same effect.", "quantifier": "all filter states and readings", "why_tests_cant": "Continuum of readings.", "anchors": ["src/oresat_adcs/classes/observers.py:DiscreteAttitudeStartrackerKalman.measurement"]}
{"id": "C84", "title": "attitude error transition matrices form a semigroup", "statement": "The error transition matrix for constant rate satisfies phi(w, s+t) == phi(w, t).dot(phi(w, s)), phi(w, 0) is the identity, and its attitude block is the rotation by -|w|t about w.", "quantifier": "all rates and time steps", "why_tests_cant": "Continuum of inputs.", "anchors": ["src/oresat_adcs/classes/observers.py:DiscreteAttitudeStartrackerKalman.state_transition"]}
{"id": "C85", "title": "position filter covariance stays symmetric positive semidefinite", "statement": "After any sequence of propagate and update calls the position filter's covariance is symmetric positive semidefinite, an update never increases it and leaves it at most the measurement covariance, and the matrix inverse never fails.", "quantifier": "all histories", "why_tests_cant": "Unbounded histories.", "anchors": ["src/oresat_adcs/classes/observers.py:DiscretePositionKalman.update", "src/oresat_adcs/classes/observers.py:DiscretePositionKalman.propagate"]}
{"id": "C86", "title": "position filter update is consistent", "statement": "update with a measurement equal to the estimate leaves the estimate unchanged; after every update the state object's position and velocity are the filter's estimate; propagate is linear in the estimate.", "quantifier": "all filter states and measurements", "why_tests_cant": "Continuum of inputs.", "anchors": ["src/oresat_adcs/classes/observers.py:DiscretePositionKalman.update", "src/oresat_adcs/classes/observers.py:DiscretePositionKalman.output"]}
{"id": "C87", "title": "position filter linearises gravity", "statement": "The lower-left block of F_continuous is the Jacobian of the central gravity acceleration at the current position estimate.", "quantifier": "all non-zero positions", "why_tests_cant": "A derivative identity at every point.", "anchors": ["src/oresat_adcs/classes/observers.py:DiscretePositionKalman.F_continuous", "src/oresat_adcs/configuration/environment.py:OrbitalEnvironment.gravity_accel"]}
{"id": "C88", "title": "flight software torque limits", "statement": "check_torque_vals never commands more than maxTorque on any wheel, never drives a wheel whose speed is within maxSpeed past maxSpeed in one step, and never reverses the sign of the requested torque.", "quantifier": "all torque requests and wheel speeds", "why_tests_cant": "Continuum of inputs.", "anchors": ["simulation/FlightSoftwareModule.py:FlightSoftware.check_torque_vals"]}
{"id": "C89", "title": "flight software takes the short way round", "statement": "The torque computed by the flight software for an attitude error q and for -q (the same attitude) is the same, so rotations are never longer than 180 degrees.", "quantifier": "all error quaternions and rates", "why_tests_cant": "Continuum of inputs.", "anchors": ["simulation/FlightSoftwareModule.py:FlightSoftware.check_hemi", "simulation/FlightSoftwareModule.py:FlightSoftware.quaternion_controller"]}
{"id": "C90", "title": "controller mode hysteresis", "statement": "mode_check's mode is always slew or precise; it changes to precise only below 30 degrees and to slew only above 40 degrees, so between two changes the error moves by more than 10 degrees.", "quantifier": "all error histories", "why_tests_cant": "Unbounded histories.", "anchors": ["simulation/FlightSoftwareModule.py:FlightSoftware.mode_check"]}
{"id": "C91", "title": "simulation quaternion helpers agree with the library", "statement": "quat_mult of the simulation (scalar last) is the library's product up to component order and normalisation, its results are unit quaternions, and error_angle of quat_error(p, q) is zero exactly when p and q are the same attitude.", "quantifier": "all non-zero quaternions", "why_tests_cant": "Two conventions must agree everywhere.", "anchors": ["simulation/Quaternions.py:quat_mult", "simulation/Quaternions.py:quat_error", "simulation/Quaternions.py:quat_conjugate", "simulation/Quaternions.py:normalize", "simulation/Quaternions.py:to_scalar_last", "simulation/Quaternions.py:error_angle", "src/oresat_adcs/functions/quaternion.py:product"]}
{"id": "C92", "title": "the equations of motion are defined on the operating range", "statement": "For a satellite with non-zero mass and known torquer types, vector_field returns a derivative at every state with geodetic height from 250 to below 500 km that is not at the sun and has a non-zero velocity relative to the air, for all commands; outside of those heights it raises.", "quantifier": "all satellites, states and commands", "why_tests_cant": "A continuum of states; division by zero or a missing branch can hide anywhere.", "anchors": ["src/oresat_adcs/classes/dynamics.py:Dynamics.vector_field", "src/oresat_adcs/configuration/environment.py:OrbitalEnvironment"]}
{"id": "C93", "title": "product moments are left out only of a reduced model", "statement": "Satellite uses the product moments of inertia it is given unless it is told that the model is reduced.", "quantifier": "all satellites", "why_tests_cant": "All configurations; a test with zero products passes either way.", "anchors": ["src/oresat_adcs/configuration/structure.py:Satellite.__init__"]}
{"id": "C94", "title": "detumbling currents brake the tumbling", "statement": "The currents MagnetorquerController.detumble returns, applied to the satellite's torquers in the measured field, do not increase the rotational energy about the commanded spin.", "quantifier": "all rates, fields, inertias and torquer axes", "why_tests_cant": "A continuum of states; a sign or scale per component can be wrong in part of the space.", "anchors": ["src/oresat_adcs/classes/controller.py:MagnetorquerController.detumble", "src/oresat_adcs/classes/controller.py:MagnetorquerController.actuator_commands"]}
{"id": "C95", "title": "bang-bang torquing rests at its reference", "statement": "In bang-bang mode the commanded currents are plus or minus the maximum or zero, and are zero when the wheels (or the rate) are at the reference.", "quantifier": "all states", "why_tests_cant": "All histories of the hysteresis and all states.", "anchors": ["src/oresat_adcs/classes/controller.py:MagnetorquerController.actuator_commands", "src/oresat_adcs/classes/controller.py:MayhewTrigger"]}
{"id": "C96", "title": "keep-out objects are given in body coordinates", "statement": "The objects that tracking hands to allowable_zone are directions in body coordinates, like the boresights they are compared with.", "quantifier": "all attitudes and positions", "why_tests_cant": "The identity attitude hides a missing rotation.", "anchors": ["src/oresat_adcs/classes/controller.py:ReactionWheelsController.__init__", "src/oresat_adcs/classes/controller.py:ReactionWheelsController.tracking"]}
{"id": "C97", "title": "staring commands the rate of the line of sight", "statement": "The rate reference of point_and_stare is the angular velocity of the line of sight to the target (without spin about it), in the coordinates of the reference attitude, and the reference attitude puts the boresight on the target.", "quantifier": "all positions, velocities, attitudes, boresights and targets", "why_tests_cant": "A continuum of geometries; frames agree only when already aligned.", "anchors": ["src/oresat_adcs/classes/controller.py:ReactionWheelsController.point_and_stare", "src/oresat_adcs/classes/controller.py:ReactionWheelsController.acquire_target"]}
{"id": "C98", "title": "the barbecue reference rolls with the clock", "statement": "When the clock ticks by dt, the reference attitude of induce_bbq_roll_attitude turns by rate * dt about the body z axis, and the z axis stays on the pole of the ecliptic.", "quantifier": "all clocks and steps", "why_tests_cant": "Histories of ticks.", "anchors": ["src/oresat_adcs/classes/controller.py:ReactionWheelsController.ecliptic_attitude", "src/oresat_adcs/classes/controller.py:ReactionWheelsController.induce_bbq_roll_attitude"]}
{"id": "C99", "title": "track_and_desaturate compensates the magnetic torque", "statement": "With the torquers' moment handed to track_and_desaturate, the angular acceleration under the magnetic torque is the one of tracking alone without it, and the wheels take up exactly the magnetic torque.", "quantifier": "all states, moments, fields and references", "why_tests_cant": "A sign of a cross product over a continuum.", "anchors": ["src/oresat_adcs/classes/controller.py:ReactionWheelsController.track_and_desaturate", "src/oresat_adcs/classes/dynamics.py:Dynamics.vector_field"]}
{"id": "C100", "title": "desaturation unloads the wheels without moving the body", "statement": "At rest in the commanded attitude, with the moment requested by desaturate, the body stays at rest and the excess wheel momentum does not grow, and it shrinks unless it lies along the field.", "quantifier": "all wheel speeds, fields and references", "why_tests_cant": "Closed loop of two controllers and the dynamics over a continuum.", "anchors": ["src/oresat_adcs/classes/controller.py:MagnetorquerController.desaturate", "src/oresat_adcs/classes/controller.py:ReactionWheelsController.track_and_desaturate", "src/oresat_adcs/classes/dynamics.py:Dynamics.vector_field"]}
{"id": "C101", "title": "gains give the requested frequency and damping", "statement": "For rotations about one axis the closed loop with gains from (damping, nat_freq) is theta'' = -2 n^2 sin(theta/2) - 2 z n theta', whose linearisation is the oscillator with natural frequency n and damping ratio z.", "quantifier": "all axes, angles inside the hysteresis, rates, inertias", "why_tests_cant": "A continuum of closed loops.", "anchors": ["src/oresat_adcs/classes/controller.py:ReactionWheelsController.__init__", "src/oresat_adcs/classes/controller.py:ReactionWheelsController.tracking"]}
{"id": "C102", "title": "tracking follows moving references", "statement": "For a reference attitude that turns with a given rate and angular acceleration, the rate error of the closed loop obeys the same equation as for a reference at rest.", "quantifier": "all references, states and inertias", "why_tests_cant": "Feed-forward terms vanish for the constant references a test uses.", "anchors": ["src/oresat_adcs/classes/controller.py:ReactionWheelsController.tracking"]}
{"id": "C103", "title": "the avoidance law follows its potential", "statement": "The power of the avoidance law is minus the rate of change of the potential 2 (1 - s q0) (alpha - sum k log psi), so that the closed loop loses energy only through damping.", "quantifier": "all attitudes, rates, instruments and objects", "why_tests_cant": "A gradient identity over a continuum.", "anchors": ["src/oresat_adcs/classes/controller.py:ReactionWheelsController.allowable_zone"]}
{"id": "C104", "title": "mission data means the same to sender and controller", "statement": "The entries of mission data are used in the order in which the manager documents them (mode, target, boresight).", "quantifier": "all mission data", "why_tests_cant": "A test that passes symmetric data cannot tell.", "anchors": ["src/oresat_adcs/classes/controller.py:ReactionWheelsController.point_and_stare", "src/oresat_adcs/system/manager_class.py:ManagerDaemonInterface.mission_input"]}
{"id": "C105", "title": "avoidance sets in continuously", "statement": "As an object comes near enough for an instrument to care about it, the output of allowable_zone changes continuously.", "quantifier": "all instruments, attitude errors and object directions", "why_tests_cant": "A jump happens on a set of measure zero.", "anchors": ["src/oresat_adcs/classes/controller.py:ReactionWheelsController.allowable_zone", "src/oresat_adcs/configuration/structure.py:SensitiveInstrument.set_gains", "src/oresat_adcs/configuration/structure.py:SensitiveInstrument.cares_about"]}
{"id": "C106", "title": "attitude filter propagation follows the kinematics", "statement": "propagate with a constant gyro rate turns the attitude estimate by the exact rotation |w - bias| * dt about w - bias.", "quantifier": "all estimates, rates and time steps", "why_tests_cant": "Agrees at small steps and at the identity attitude; differs elsewhere on a continuum.", "anchors": ["src/oresat_adcs/classes/observers.py:DiscreteAttitudeStartrackerKalman.propagate", "src/oresat_adcs/classes/observers.py:DiscreteAttitudeStartrackerKalman.state_transition"]}
{"id": "C107", "title": "a star tracker reading moves the estimate by the Kalman gain", "statement": "A reading that differs from the estimate by a small rotation turns the estimate by the optimal fraction p / (p + sigma^2) of that rotation.", "quantifier": "all estimates, readings and variances", "why_tests_cant": "Convergence hides a constant factor in the gain.", "anchors": ["src/oresat_adcs/classes/observers.py:DiscreteAttitudeStartrackerKalman.measurement", "src/oresat_adcs/classes/observers.py:DiscreteAttitudeStartrackerKalman.reset"]}
{"id": "C108", "title": "position filter's state object follows its estimate", "statement": "After propagate the state object of the position filter holds the same position and velocity as output returns.", "quantifier": "all filters and time steps", "why_tests_cant": "Two copies of one value over all histories.", "anchors": ["src/oresat_adcs/classes/observers.py:DiscretePositionKalman.propagate", "src/oresat_adcs/classes/observers.py:DiscretePositionKalman.output"]}
{"id": "C109", "title": "position filter uses one motion model", "statement": "To first order in the time step, the matrix that propagates the covariance and the one that propagates the estimate agree on the effect of the velocity.", "quantifier": "all filters", "why_tests_cant": "Derivatives of matrices at every state.", "anchors": ["src/oresat_adcs/classes/observers.py:DiscretePositionKalman.F_continuous", "src/oresat_adcs/classes/observers.py:DiscretePositionKalman.state_transition", "src/oresat_adcs/classes/observers.py:DiscretePositionKalman.propagate"]}
{"id": "C110", "title": "the older manager handles every mode", "statement": "mission_input of system.manager returns in every mode, given a filter and controllers that work.", "quantifier": "all modes, commands and mission data", "why_tests_cant": "Wrong arities show only on the branch that is taken.", "anchors": ["src/oresat_adcs/system/manager.py:ManagerDaemonInterface.mission_input"]}
{"id": "C111", "title": "filters are propagated by the durations asked for", "statement": "Over any history of KalmanFilters.propagate calls, the total time the attitude filter is propagated by stays within a fixed bound of the total duration.", "quantifier": "all histories of durations, all steps", "why_tests_cant": "Drift shows only over long histories.", "anchors": ["src/oresat_adcs/classes/observers.py:KalmanFilters.propagate"]}
{"id": "C112", "title": "propagating the filters succeeds", "statement": "Once output has been called, KalmanFilters.propagate returns and propagates both filters.", "quantifier": "all filters and durations", "why_tests_cant": "Every duration; whether the failing branch is taken depends on it.", "anchors": ["src/oresat_adcs/classes/observers.py:KalmanFilters.propagate", "src/oresat_adcs/classes/observers.py:DiscretePositionKalman.__init__"]}
{"id": "C113", "title": "zeroing the wheels stops them", "statement": "Repeated zero_wheel_speeds slows every wheel by the greatest torque in each step, never overshoots zero, and has all wheels at rest after finitely many steps.", "quantifier": "all wheel speeds, inertias, limits and time steps", "why_tests_cant": "The number of steps is unbounded in the speed.", "anchors": ["simulation/FlightSoftwareModule.py:FlightSoftware.zero_wheel_speeds"]}
{"id": "C114", "title": "wheel torques produce the requested body torque", "statement": "The torques of convert_torque_to_wheels react on the body with exactly the requested torque, and have the least norm among all wheel torques that do.", "quantifier": "all requested torques, all wheel geometries", "why_tests_cant": "Optimality is over a continuum of alternatives.", "anchors": ["simulation/FlightSoftwareModule.py:FlightSoftware.convert_torque_to_wheels", "simulation/FlightSoftwareModule.py:FlightSoftware.__init__", "simulation/ADCS_Simulation_Basilisk.py:sim_main"]}
{"id": "C115", "title": "axis, angle and quaternion agree in the simulation", "statement": "axis_angle_to_quaternion gives the unit quaternion of the right-handed rotation; get_rotation_angle_from_quaternion gives the angle back from 0 to 360 degrees, error_angle the smaller of it and its complement, and quat_to_axis the axis unless the sine of half the angle is below 1e-6, when it gives the x axis.", "quantifier": "all axes and angles", "why_tests_cant": "Round trips over a continuum.", "anchors": ["simulation/Quaternions.py:axis_angle_to_quaternion", "simulation/Quaternions.py:quat_to_axis", "simulation/Quaternions.py:get_rotation_angle_from_quaternion", "simulation/Quaternions.py:error_angle"]}
{"id": "C116", "title": "rotation sequences mean what they document", "statement": "rotation_sequence_to_quaternion([x, y, z], order) is the rotation by the angles x, y and z about the body axes of those names, made in the given order.", "quantifier": "all angles and orders", "why_tests_cant": "Orders agree on single rotations and differ on almost all others.", "anchors": ["simulation/Quaternions.py:rotation_sequence_to_quaternion"]}
{"id": "C117", "title": "nadir quaternion points the body axis at the Earth", "statement": "For every non-zero position and body axis, get_nadir_pointing_quaternion returns a unit quaternion that turns the body axis to the direction of the centre of the Earth, exactly unless they are within 1e-8 of being parallel, and then to within 2e-8.", "quantifier": "all positions and body axes", "why_tests_cant": "The parallel cases are a set of measure zero.", "anchors": ["simulation/ADCS_Simulation_Basilisk.py:get_nadir_pointing_quaternion"]}
{"id": "C118", "title": "flight software runs without fault", "statement": "Over every history of non-zero star tracker readings, rates and wheel speeds, UpdateState never fails, commands no more than the greatest torque, and keeps the initial target or the second one; the target changes only when the reading is the target attitude and the rate is zero.", "quantifier": "all histories", "why_tests_cant": "Unbounded histories.", "anchors": ["simulation/FlightSoftwareModule.py:FlightSoftware.UpdateState", "simulation/FlightSoftwareModule.py:FlightSoftware.command_wheel_torques", "simulation/FlightSoftwareModule.py:FlightSoftware.check_hemi"]}
{"id": "C119", "title": "the gain matrix stabilises its design model", "statement": "The gain of get_gain_matrix exists and drives the sampled design model to zero from every state; the sampled model is the exact solution of the continuous one under a constant torque.", "quantifier": "all inertias, time steps, weights and initial states", "why_tests_cant": "Convergence of infinite sequences.", "anchors": ["simulation/ADCS_Discrete_State_Space_Calculator.py:get_gain_matrix"]}
{"id": "C120", "title": "the gain matrix is optimal", "statement": "Over every horizon, the feedback with the gain has the least quadratic cost among all input sequences, and that cost is the quadratic form of the Riccati solution.", "quantifier": "all horizons, input sequences and initial states", "why_tests_cant": "Optimality is over a continuum of alternatives of unbounded length.", "anchors": ["simulation/ADCS_Discrete_State_Space_Calculator.py:get_gain_matrix"]}
{"id": "C121", "title": "the design model is that of the error the controller uses", "statement": "At the target, the vector part of quat_error(target, q) changes with the body rate as in the model the gain is designed for: by half of the rate.", "quantifier": "all targets, attitudes and rates", "why_tests_cant": "A derivative at every attitude.", "anchors": ["simulation/ADCS_Discrete_State_Space_Calculator.py:get_gain_matrix", "simulation/Quaternions.py:quat_error", "simulation/FlightSoftwareModule.py:FlightSoftware.quaternion_controller"]}
{"id": "C122", "title": "integrator states accumulate the negative outputs", "statement": "add_integrators gives a system whose first states move as before and whose added states have the negative outputs as their rates.", "quantifier": "all matrices, states and inputs", "why_tests_cant": "All shapes and values.", "anchors": ["simulation/ADCS_Discrete_State_Space_Calculator.py:add_integrators"]}
{"id": "C123", "title": "the flight software turns towards its target", "statement": "At rest, the torque of the flight software accelerates the satellite towards its target, the shorter way.", "quantifier": "all errors below 180 degrees", "why_tests_cant": "A simulation that ends at the target does not show which way it went.", "anchors": ["simulation/FlightSoftwareModule.py:FlightSoftware.quaternion_controller", "simulation/FlightSoftwareModule.py:FlightSoftware.check_hemi", "simulation/FlightSoftwareModule.py:FlightSoftware.UpdateState", "simulation/Quaternions.py:quat_error"]}
{"id": "C124", "title": "repeated position readings are averaged", "statement": "A new position filter given any number of readings without propagation holds, on every axis, the mean of its initial state and the readings, with the initial state weighing sigma^2 readings; its covariance is diagonal with the variance of that mean; from any covariance N readings leave at most sigma^2/N of variance, and their order does not matter.", "quantifier": "all initial states, all lists of readings of any length", "why_tests_cant": "Unbounded lists of real readings and their permutations.", "anchors": ["src/oresat_adcs/classes/observers.py:DiscretePositionKalman.update", "src/oresat_adcs/classes/observers.py:DiscretePositionKalman.__init__"]}
{"id": "C125", "title": "repeated readings bring the position estimate to the true value", "statement": "If the same position and velocity are read again and again, the estimate converges to them from any positive definite covariance; from the initial covariance the error after N readings is sigma^2/(sigma^2+N) of the initial one, so that 10000 readings still leave a hundredth of it; readings on the same side of the Earth never make the filter raise.", "quantifier": "all initial states, readings and numbers of readings", "why_tests_cant": "A limit over unboundedly many calls.", "anchors": ["src/oresat_adcs/classes/observers.py:DiscretePositionKalman.update"]}
{"id": "C126", "title": "repeated star tracker readings reduce the attitude variance as 1/N and say nothing about the bias", "statement": "N star tracker readings in a row never raise, leave at most sigma^2/N of attitude variance whatever the covariance was and whatever was read, and the covariance left depends on their number only; a new filter given any number of them keeps a zero bias with its initial variance.", "quantifier": "all filter states and lists of readings of any length", "why_tests_cant": "Unbounded lists of real readings.", "anchors": ["src/oresat_adcs/classes/observers.py:DiscreteAttitudeStartrackerKalman.measurement", "src/oresat_adcs/classes/observers.py:DiscreteAttitudeStartrackerKalman.reset"]}
{"id": "C127", "title": "every position in space has geodetic coordinates", "statement": "For every position at least 6300 km from the centre of the Earth, ecef_to_lla does not raise; latitude is within 90 degrees on the side of the equator the position is on, longitude within 180 degrees, and the height lies between the distances to the enclosing and the enclosed sphere of the ellipsoid up to 400 m. A satellite state there can be constructed and updated at any time. At the centre of the Earth none can be.", "quantifier": "all positions at 6300 km or more, all clocks and states", "why_tests_cant": "Continuum of positions; math.asin and math.acos raise on arguments that leave [-1, 1] by any amount.", "anchors": ["src/oresat_adcs/functions/frame.py:ecef_to_lla", "src/oresat_adcs/classes/dynamics.py:SatelliteState.__new__", "src/oresat_adcs/classes/dynamics.py:SatelliteState.update"]}
{"id": "C128", "title": "magnetorquer power is the ohmic loss of the coils", "statement": "The power of a magnetorquer system is the sum over its coils of resistance times current squared: never negative, zero only with every coil off, unchanged when the currents are reversed, quadratic in their scale and no larger for smaller currents. A torquer that was constructed always has a power; one of an unknown type raises.", "quantifier": "all systems of any number of constructed torquers, all currents", "why_tests_cant": "Systems of any size and real currents.", "anchors": ["src/oresat_adcs/configuration/structure.py:Magnetorquer.__init__", "src/oresat_adcs/configuration/structure.py:Magnetorquer.power", "src/oresat_adcs/configuration/structure.py:MagnetorquerSystem.power"]}
{"id": "C129", "title": "max_A limits the magnetorquer", "statement": "max_A is the maximum current a torquer is allowed to use: whatever current it is driven with, its moment does not exceed max_m, the moment at max_A.", "quantifier": "all types, axes, limits and currents", "why_tests_cant": "Continuum of currents; a saturating rod reverses beyond 2.15 A.", "anchors": ["src/oresat_adcs/configuration/structure.py:Magnetorquer.__init__", "src/oresat_adcs/configuration/structure.py:Magnetorquer.actuate"]}
{"id": "C130", "title": "sync and set_datetime put the clock right", "statement": "JClock.sync returns by how many seconds the clock was behind, and ticking the clock by that number instead gives the same reading; a later sync reports the time between. set_datetime gives the reading of a new clock, or raises and leaves the clock alone. Neither touches absolute.", "quantifier": "all clocks, instants and calendar fields", "why_tests_cant": "All instants of 9999 years in microseconds.", "anchors": ["src/oresat_adcs/classes/jday.py:JClock.sync", "src/oresat_adcs/classes/jday.py:JClock.set_datetime", "src/oresat_adcs/classes/jday.py:JClock.tick"]}
{"id": "C131", "title": "one call of the manager takes in data, commands and propagates", "statement": "ManagerDaemonInterface.propagate takes in the sensor data first, computes the commands from the estimate with that data, propagates both filters, and returns the commands and the estimate afterwards. It returns whenever its parts work.", "quantifier": "all managers, durations, modes, data, and histories of calls", "why_tests_cant": "Histories of any length over real-valued states.", "anchors": ["src/oresat_adcs/system/manager_class.py:ManagerDaemonInterface.sensor_input", "src/oresat_adcs/system/manager_class.py:ManagerDaemonInterface.output", "src/oresat_adcs/system/manager_class.py:ManagerDaemonInterface.propagate", "src/oresat_adcs/classes/observers.py:KalmanFilters.output", "src/oresat_adcs/classes/observers.py:KalmanFilters.update", "src/oresat_adcs/classes/observers.py:KalmanFilters.propagate"]}
{"id": "C132", "title": "the gyro bias is removed once", "statement": "KalmanFilters.propagate turns the attitude estimate by the gyro reading less the estimated bias.", "quantifier": "all filter states that calls can lead to, all readings", "why_tests_cant": "Needs a history with a nonzero bias estimate, and a look at the rate inside.", "anchors": ["src/oresat_adcs/classes/observers.py:KalmanFilters.output", "src/oresat_adcs/classes/observers.py:KalmanFilters.propagate", "src/oresat_adcs/classes/observers.py:DiscreteAttitudeStartrackerKalman.propagate"]}
{"id": "C133", "title": "a simulator's clock shows the time asked of that simulator", "statement": "After any sequence of calls of several simulators and ticks of their clocks, the clock of a simulator has advanced by the time that simulator was asked for.", "quantifier": "all programs over any number of simulators and clock objects, all sequences of calls, whole numbers of steps", "why_tests_cant": "Depends on which objects share a clock and on the whole history of calls.", "anchors": ["src/oresat_adcs/classes/dynamics.py:SatelliteState.__new__", "src/oresat_adcs/classes/dynamics.py:SatelliteState.__add__", "src/oresat_adcs/classes/dynamics.py:Integrator.update", "src/oresat_adcs/classes/dynamics.py:Integrator.integrate", "src/oresat_adcs/classes/jday.py:JClock.tick"]}
{"id": "C134", "title": "a simulator leaves the state it was given as it was", "statement": "The initial state handed to a simulator is only read: after any call it has the contents, the attributes and the clock reading it had.", "quantifier": "all initial states, step sizes and durations", "why_tests_cant": "Aliasing between the caller's object and the simulator's over any number of steps.", "anchors": ["src/oresat_adcs/classes/dynamics.py:SatelliteState.__new__", "src/oresat_adcs/classes/dynamics.py:SatelliteState.__add__", "src/oresat_adcs/classes/dynamics.py:Integrator.update", "src/oresat_adcs/classes/dynamics.py:Integrator.integrate"]}
{"id": "C135", "title": "the error of a step is of the order of dt^5", "statement": "One step of Integrator.RK4_step differs from the exact solution by at most a constant times the fifth power of the step, for smooth fields, including those that depend on the time.", "quantifier": "all step sizes, fields and states", "why_tests_cant": "An order of convergence is a statement about all small step sizes at once.", "anchors": ["src/oresat_adcs/classes/dynamics.py:Integrator.RK4_step", "src/oresat_adcs/classes/dynamics.py:Integrator.update"]}
{"id": "C136", "title": "ecef_to_lla inverts the WGS-84 ellipsoid", "statement": "For every geodetic latitude, longitude and height from 10 km below the surface of the WGS-84 ellipsoid upwards, ecef_to_lla of the position there returns the latitude within 5e-11 degrees, the longitude exactly (away from the poles) and the height within 1e-10 m. Every position on or outside the ellipsoid has such coordinates.", "quantifier": "all latitudes, longitudes and heights from -10 km up; all positions on or outside the ellipsoid", "why_tests_cant": "An accuracy of a truncated series over a continuum, far below what sampled comparisons in floating point can show.", "anchors": ["src/oresat_adcs/functions/frame.py:ecef_to_lla"]}
{"id": "C137", "title": "where avoidance acts, and that its push only brakes", "statement": "In a ReactionWheelsController, an instrument with an exclusion half-angle b below 90 degrees takes an object into account exactly when it is less than 180 - b degrees from the boresight. The extra push close to the bound never does work on the rate error, turns at right angles to the axis of the attitude error, has size nat_freq^2 per object, and is absent when the margin to every object is at least a quarter of the onset margin.", "quantifier": "all instruments, objects, attitude errors and rate errors", "why_tests_cant": "Signs and thresholds over a continuum of attitudes, rates and directions.", "anchors": ["src/oresat_adcs/classes/controller.py:ReactionWheelsController.__init__", "src/oresat_adcs/classes/controller.py:ReactionWheelsController.allowable_zone", "src/oresat_adcs/configuration/structure.py:SensitiveInstrument.set_gains", "src/oresat_adcs/configuration/structure.py:SensitiveInstrument.cares_about"]}
{"id": "C138", "title": "get_gain_matrix always has an answer, one answer, and the answer stabilises", "statement": "For every invertible inertia, nonzero sampling time and nonzero error and rate limits, with or without integrators, the Riccati equation of get_gain_matrix has exactly one positive semidefinite solution, the inverse in the gain exists, and so exactly one gain matrix can be returned. With it the sampled model goes to zero from every state, and the warning about eigenvalues outside the unit circle is never printed. The sampled model with integrators is the exact solution of the continuous one.", "quantifier": "all invertible inertias, sampling times, limits, initial states, complex eigenvalues", "why_tests_cant": "Existence and uniqueness of the solution of a matrix equation over a continuum of parameters, and a limit of infinite runs.", "anchors": ["simulation/ADCS_Discrete_State_Space_Calculator.py:get_gain_matrix", "simulation/ADCS_Discrete_State_Space_Calculator.py:add_integrators"]}
{"id": "C139", "title": "what a constant disturbing torque leaves behind", "statement": "With the gain of get_gain_matrix(use_integrator=True), attitude error and rate go to zero from every state under every constant disturbing torque. With use_integrator=False the rate goes to zero, but the attitude error goes to a value that is zero only when the torque is.", "quantifier": "all invertible inertias, sampling times, limits, initial states and constant torques", "why_tests_cant": "A limit of infinite runs for every disturbance.", "anchors": ["simulation/ADCS_Discrete_State_Space_Calculator.py:get_gain_matrix", "simulation/ADCS_Discrete_State_Space_Calculator.py:add_integrators"]}
{"id": "C140", "title": "tracking brings the satellite to the commanded attitude", "statement": "With the wheel commands of ReactionWheelsController.tracking for an attitude at rest, with positive gains, and no object to be avoided near, the satellite's rate and its distance from the commanded attitude (up to the sign of the quaternion) fall off exponentially along every motion of the library's dynamics, from every attitude and rate, including those 180 degrees away. The sign switches a bounded number of times. Disturbing torques leave an error of the order of their size. Motions of every duration exist from every attitude and rate, and for every tolerance there is a time after which all motions from errors up to a given size are within it, whatever switches happen on the way.", "quantifier": "all satellites, gains, initial attitudes and rates, motions of any duration, bounded disturbing torques", "why_tests_cant": "A limit over unbounded time from every initial state of a nonlinear system.", "anchors": ["src/oresat_adcs/classes/controller.py:ReactionWheelsController.tracking", "src/oresat_adcs/classes/controller.py:ReactionWheelsController.actuator_commands", "src/oresat_adcs/classes/controller.py:MayhewTrigger.step", "src/oresat_adcs/classes/controller.py:MayhewTrigger.sign", "src/oresat_adcs/classes/dynamics.py:Dynamics.vector_field"]}
{"id": "C141", "title": "motion under the gravity model obeys Kepler's laws", "statement": "Along every motion with the acceleration of gravity_accel (without the oblateness terms), angular momentum, energy and eccentricity vector stay what they were; the satellite stays in a plane and on a conic with the centre of the Earth in a focus; with negative energy it stays between perigee a(1-e) and apogee a(1+e) and has the speed of the vis-viva law. With the oblateness terms the component of the angular momentum along the Earth's axis stays what it was. Such motions exist from every position but the centre.", "quantifier": "all motions on any interval of time, all initial positions and velocities", "why_tests_cant": "Conservation along solutions of a differential equation, for all initial states and all times.", "anchors": ["src/oresat_adcs/configuration/environment.py:Environment.gravity_accel", "src/oresat_adcs/configuration/environment.py:OrbitalEnvironment.gravity_accel", "src/oresat_adcs/configuration/environment.py:OrbitalEnvironment.hi_fi_gravity"]}
{"id": "C142", "title": "the magnetic field is a static field in vacuum", "statement": "At each time OrbitalEnvironment.magnetic_field is, as a function of the inertial position, the gradient of a potential and has neither sources nor vortices: its Jacobian is symmetric and has trace zero.", "quantifier": "all times and all positions but the centre of the Earth", "why_tests_cant": "A statement about derivatives at every point.", "anchors": ["src/oresat_adcs/configuration/environment.py:OrbitalEnvironment.magnetic_field"]}
{"id": "C143", "title": "the attitude estimators agree", "statement": "On exact observations of a unit quaternion with at least two directions that are not parallel, flae returns that attitude unless its last component is 0 (as for the identity), and then it does not return; where both are defined flae and triad_algorithm describe the same rotation; the order and the lengths of the observations do not matter to flae.", "quantifier": "all attitudes, numbers of observations, directions and weights that add up to 1", "why_tests_cant": "Any number of observations over real-valued directions and attitudes.", "anchors": ["src/oresat_adcs/functions/attitude_estimation.py:flae", "src/oresat_adcs/functions/attitude_estimation.py:triad_algorithm"]}
{"id": "C144", "title": "the position filter between fixes", "statement": "Predictions of DiscretePositionKalman.propagate without fixes stay in the orbital plane and keep the sense of the revolution. Equal steps of up to 10.5 s keep energy within 0.03 percent of a slowly decaying multiple of the initial one, however many they are; steps from 10.6 s up to 2000 s make it grow without bound. On the circular orbit of angular velocity sqrt(1.28e-6) rad/s a step of up to 10 s from the exact state has an error of at most 2e-6(dt^2+dt^4) m and 2e-6(dt+dt^3) m/s.", "quantifier": "all filter states with a nonzero angular momentum, all numbers of steps and durations", "why_tests_cant": "Stability over runs of any length; the threshold lies between two step sizes that tests would not tell apart.", "anchors": ["src/oresat_adcs/classes/observers.py:DiscretePositionKalman.propagate", "src/oresat_adcs/classes/observers.py:DiscretePositionKalman.state_transition"]}
{"id": "C145", "title": "what alignment of the barbecue roll means", "statement": "The reference of MagnetorquerController is the spin of 0.02932 rad/s about the body's z axis with the angular momentum to the north pole of the ecliptic, which is orthogonal to the sun up to the drift of the obliquity. A satellite that check finds aligned is in this spin.", "quantifier": "all satellites with positive definite inertia, all attitudes and rates, all dates", "why_tests_cant": "A converse over all attitudes and rates; tests evaluate check only at aligned states.", "anchors": ["src/oresat_adcs/classes/controller.py:MagnetorquerController.__init__", "src/oresat_adcs/classes/controller.py:MagnetorquerController.check", "src/oresat_adcs/configuration/state_machine.py:State.BBQ_transition"]}
{"id": "C146", "title": "the magnetic barbecue roll approaches the wanted spin", "statement": "While the torque asked for by MagnetorquerController.no_q_bbq_roll acts on a satellite, the sum of the squares of its two errors (momentum to the one wanted in the body, and to the one wanted in inertial coordinates) never grows, and stands still only when no magnetic torque can act on the error.", "quantifier": "all satellites, magnetic fields, attitudes and rates, motions of any duration", "why_tests_cant": "A Lyapunov argument along all motions.", "anchors": ["src/oresat_adcs/classes/controller.py:MagnetorquerController.no_q_bbq_roll", "src/oresat_adcs/classes/controller.py:MagnetorquerController.actuator_commands"]}
{"id": "C147", "title": "every mode can be commanded from every other", "statement": "After any history of calls with members of State, every mode can be reached from the present one by at most four change_state requests that are all accepted, without passing through FAILED; get_next_mission returns the mission that was set last, and missions and states do not disturb each other.", "quantifier": "all histories of calls of any length, all target modes", "why_tests_cant": "Reachability after every history, and a bound over all histories of requests.", "anchors": ["src/oresat_adcs/configuration/state_machine.py:StateMachine.change_state", "src/oresat_adcs/configuration/state_machine.py:StateMachine.get_next_mission", "src/oresat_adcs/configuration/state_machine.py:StateMachine.set_next_mission", "src/oresat_adcs/configuration/state_machine.py:StateMachine.__init__"]}
{"id": "C148", "title": "an unsafe satellite recovers by itself", "statement": "A satellite in UNSAFE that turns slowly, is aligned, has idle torquers and little momentum in its wheels gets back to SAFE by calls of StateMachine.transition.", "quantifier": "all sequences of sensor values of any length", "why_tests_cant": "Quantifies over all numbers of calls and all sensor values.", "anchors": ["src/oresat_adcs/configuration/state_machine.py:StateMachine.transition", "src/oresat_adcs/configuration/state_machine.py:State.UNSAFE_transition", "src/oresat_adcs/configuration/state_machine.py:State.DETUMBLE_transition", "src/oresat_adcs/configuration/state_machine.py:State.BBQ_transition"]}
{"id": "C149", "title": "the error angle is a distance between attitudes", "statement": "error_angle(quat_error(q, r)) of the simulation is a distance between attitudes: it is zero only for the same attitude (C91), the same in both directions, at most 180 degrees, obeys the triangle inequality and does not change when both attitudes are turned alike; hemi does not change the attitude; the initial target of the simulation is the commanded angle away from its attitude.", "quantifier": "all non-zero quaternions, axes and angles from 0 to 360 degrees", "why_tests_cant": "An inequality over triples of attitudes and an identity over the whole sphere.", "anchors": ["simulation/Quaternions.py:error_angle", "simulation/Quaternions.py:quat_error", "simulation/Quaternions.py:quat_mult", "simulation/Quaternions.py:hemi", "simulation/Quaternions.py:axis_angle_to_quaternion"]}
{"id": "C150", "title": "the gain matrix does not depend on the body axes", "statement": "get_gain_matrix for body axes that are turned or mirrored returns the same controller written in the new axes, with or without integrators. For principal axes the three axes are controlled apart from each other, and with positive moments the torque opposes error and rate on every axis, with a damping above a quarter of the sampling time times the stiffness.", "quantifier": "all invertible inertias, orthogonal changes of axes, sampling times and limits", "why_tests_cant": "Quantifies over all changes of axes and all inertias; needs uniqueness of the solution of a Riccati equation.", "anchors": ["simulation/ADCS_Discrete_State_Space_Calculator.py:get_gain_matrix", "simulation/ADCS_Discrete_State_Space_Calculator.py:add_integrators"]}
{"id": "C151", "title": "the margins of one axis", "statement": "The transfer function of axis_margins is the loop of that axis in the continuous design model of a satellite with principal axes. With the gain of get_gain_matrix it has exactly one crossover, a phase margin strictly between 0 and 90 degrees and an infinite gain margin, so that every larger or smaller positive multiple of the gain keeps the loop stable, also with the sampling time for which it was designed.", "quantifier": "all positive principal moments, sampling times, limits, frequencies and multiples", "why_tests_cant": "Quantifies over all frequencies and all multiples of the gain.", "anchors": ["simulation/Stability Analysis.py:axis_margins", "simulation/ADCS_Discrete_State_Space_Calculator.py:get_gain_matrix"]}
{"id": "C152", "title": "the transition methods decide as documented", "statement": "Called on a member of State with a mission, the transition method of that state returns the next state that the sensors call for (DETUMBLE while the rate is at least 0.05 rad/s, then BBQ; SAFE once aligned with idle torquers and slow wheels; POINT from the start of the mission; UNSAFE after its end; SLEEP once the wheels have stopped), and change_state accepts it.", "quantifier": "all states, sensor values and missions", "why_tests_cant": "All combinations of sensor values, with exact thresholds.", "anchors": ["src/oresat_adcs/configuration/state_machine.py:State.SAFE_transition", "src/oresat_adcs/configuration/state_machine.py:State.DETUMBLE_transition", "src/oresat_adcs/configuration/state_machine.py:State.BBQ_transition", "src/oresat_adcs/configuration/state_machine.py:State.UNSAFE_transition", "src/oresat_adcs/configuration/state_machine.py:State.SPINDOWN_transition", "src/oresat_adcs/configuration/state_machine.py:State.POINT_transition", "src/oresat_adcs/configuration/state_machine.py:StateMachine.change_state"]}
{"id": "C153", "title": "accuracy of whole simulations", "statement": "For equations of motion that do not depend on the time, such as those of vector_field with gravity and its gradient torque as the only forces, every sequence of calls of Integrator.update with a step that is short enough runs without an exception and stays within a constant times dt^4 of the exact motion, in every number of the state, up to any time to which the exact motion exists outside of the Earth.", "quantifier": "all satellites, starts, wheel accelerations, durations, steps below a bound, numbers of steps", "why_tests_cant": "Needs the error of all step sizes and of all numbers of steps against the exact motion, which tests do not have.", "anchors": ["src/oresat_adcs/classes/dynamics.py:Integrator.update", "src/oresat_adcs/classes/dynamics.py:Integrator.RK4_step", "src/oresat_adcs/classes/dynamics.py:Dynamics.vector_field", "src/oresat_adcs/classes/dynamics.py:Dynamics.gravity_F_and_T"]}
{"id": "C154", "title": "the law of noisy measurements", "statement": "With independent standard normal draws, the readings of one call of Dynamics.measurement(state, noisy=True) are independent of each other and of all later draws, and normal around the true value plus the mean given to the sensor, with the standard deviation given to the sensor; the gyro reads around the true rate plus the average of its last two biases, and the scalar part of the star tracker's quaternion is exact.", "quantifier": "all states away from the sun, sensor parameters and gyro biases; the law over all draws", "why_tests_cant": "A statement about the joint distribution over infinitely many draws; a test sees a sample.", "anchors": ["src/oresat_adcs/classes/sensor.py:Sensor.generate_noise", "src/oresat_adcs/classes/sensor.py:Sensor.measurement", "src/oresat_adcs/classes/sensor.py:StarTracker.generate_noise", "src/oresat_adcs/classes/sensor.py:Gyro.generate_noise", "src/oresat_adcs/classes/dynamics.py:Dynamics.measurement"]}
{"id": "C155", "title": "gyro statistics do not depend on the step size", "statement": "The law of the simulated gyro's bias, and of the error of its integrated readings, depends on the elapsed time only and not on how it is divided into propagate calls: variance init_bias^2 + rrw^2 T for the bias, and init_bias^2 T^2 + arw^2 T + rrw^2 T^3/3 for the integrated error.", "quantifier": "all parameters, sequences of positive steps and true rates", "why_tests_cant": "Quantifies over all divisions of time and over the distribution of all draws.", "anchors": ["src/oresat_adcs/classes/sensor.py:Gyro.__init__", "src/oresat_adcs/classes/sensor.py:Gyro.propagate", "src/oresat_adcs/classes/sensor.py:Gyro.generate_noise"]}
{"id": "C156", "title": "the mean of the gyro noise", "statement": "The average of a gyro reading over the draws is the true rate plus the arw_mean given to the constructor.", "quantifier": "all parameters, steps and states", "why_tests_cant": "An average over infinitely many draws; the tests and examples only use the value 0.", "anchors": ["src/oresat_adcs/classes/sensor.py:Gyro.__init__", "src/oresat_adcs/classes/sensor.py:Gyro.propagate", "src/oresat_adcs/classes/sensor.py:Gyro.generate_noise"]}
{"id": "C157", "title": "the position filter's covariance is the covariance of its error", "statement": "If before a GPS reading the position filter's error has mean zero and the covariance that the filter reports, then after any number of update calls with readings whose noise is uncorrelated it still has, and no other linear correction by the reading leaves a smaller variance in any direction.", "quantifier": "all probability spaces, true states, covariances, numbers of readings, other gains and directions", "why_tests_cant": "A statement about expectations over all noise, and a comparison with all other gains.", "anchors": ["src/oresat_adcs/classes/observers.py:DiscretePositionKalman.update", "src/oresat_adcs/classes/observers.py:DiscretePositionKalman.__init__", "src/oresat_adcs/classes/sensor.py:GPS_pos", "src/oresat_adcs/classes/sensor.py:GPS_vel"]}
{"id": "C158", "title": "the flight software settles on its target", "statement": "With the gain of get_gain_matrix, small attitude errors and rates about the target of the flight software die out, whatever the target attitude and the mounting of the star tracker, at least for one of the two quaternions of the attitude.", "quantifier": "all principal moments of inertia, weights, sampling times, targets, mountings and wheel speeds below the limit", "why_tests_cant": "Needs the asymptotic behaviour of the sampled loop for all targets; the simulation is run with two of them, and shows an instability that its comment calls weird.", "anchors": ["simulation/FlightSoftwareModule.py:FlightSoftware.UpdateState", "simulation/FlightSoftwareModule.py:FlightSoftware.quaternion_controller", "simulation/FlightSoftwareModule.py:FlightSoftware.convert_torque_to_wheels", "simulation/FlightSoftwareModule.py:FlightSoftware.check_torque_vals", "simulation/Quaternions.py:quat_error", "simulation/Quaternions.py:to_scalar_last", "simulation/ADCS_Discrete_State_Space_Calculator.py:get_gain_matrix", "simulation/ADCS_Simulation_Basilisk.py:sim_main"]}
{"id": "C159", "title": "what moves the satellite", "statement": "In vector_field, the mass times the acceleration is the sum of the forces of drag, gravity and solar pressure, and the rate of change of the angular momentum in space is the sum of their torques and of the moment of the magnetorquers times the magnetic field; other currents change only the angular acceleration, by a torque across the field.", "quantifier": "all satellites, states with a unit quaternion, currents and wheel accelerations", "why_tests_cant": "Continuum of states and commands; a test would repeat the formulas of the code, in the frame of the code.", "anchors": ["src/oresat_adcs/classes/dynamics.py:Dynamics.env_F_and_T", "src/oresat_adcs/classes/dynamics.py:Dynamics.vector_field"]}
{"id": "C160", "title": "the true loop near the target", "statement": "The satellite of the simulation, a rigid body with reaction wheels that the flight software samples and commands, without approximation: from all starts near enough to the target, at rest and without total angular momentum, it stays near the target, at least for one of the two quaternions of the attitude, and where the linear loop settles it goes to the target in the end.", "quantifier": "all principal moments of inertia, wheel inertias, weights, sampling times, targets, mountings, starts and motions", "why_tests_cant": "Needs all motions of a nonlinear system for all times; the simulation follows a few for a limited time.", "anchors": ["simulation/FlightSoftwareModule.py:FlightSoftware.UpdateState", "simulation/FlightSoftwareModule.py:FlightSoftware.quaternion_controller", "simulation/FlightSoftwareModule.py:FlightSoftware.convert_torque_to_wheels", "simulation/FlightSoftwareModule.py:FlightSoftware.check_torque_vals", "simulation/Quaternions.py:quat_error", "simulation/Quaternions.py:to_scalar_last", "simulation/ADCS_Discrete_State_Space_Calculator.py:get_gain_matrix", "simulation/ADCS_Simulation_Basilisk.py:sim_main"]}
{"id": "C161", "title": "the transition of the attitude filter is that of the true error", "statement": "DiscreteAttitudeStartrackerKalman.propagate moves the covariance by a matrix that is the derivative of the exact error motion: of two attitudes that turn at constant rates, the estimate at the reading minus the bias estimate and the truth at the reading minus the true bias, the small angles and the bias error after dt depend on the initial ones, to first order, by exactly this matrix.", "quantifier": "all unit estimates, readings, biases, time steps of any sign and length, and directions of the initial error; rate zero included", "why_tests_cant": "A derivative of the solution of a differential equation in all directions, at all rates; no test computes it.", "anchors": ["src/oresat_adcs/classes/observers.py:DiscreteAttitudeStartrackerKalman.propagate", "src/oresat_adcs/classes/observers.py:DiscreteAttitudeStartrackerKalman.state_transition"]}
{"id": "C162", "title": "the process noise of the attitude filter is that of the gyro", "statement": "For the simulated gyro with the densities that the filter assumes, the covariance that DiscreteAttitudeStartrackerKalman.propagate predicts without rotation is the covariance of the errors of the dead-reckoned attitude and of the bias.", "quantifier": "all histories of gyro readings, initial bias variances and means of the white noise; the covariance over all draws", "why_tests_cant": "Compares a matrix with expectations over infinitely many draws.", "anchors": ["src/oresat_adcs/classes/observers.py:DiscreteAttitudeStartrackerKalman.propagate", "src/oresat_adcs/classes/observers.py:DiscreteAttitudeStartrackerKalman.state_transition", "src/oresat_adcs/classes/sensor.py:Gyro.__init__", "src/oresat_adcs/classes/sensor.py:Gyro.propagate", "src/oresat_adcs/classes/sensor.py:Gyro.generate_noise"]}
{"id": "C163", "title": "the predicted covariance does not depend on the steps", "statement": "Without rotation, predicting n times over dt with DiscreteAttitudeStartrackerKalman.propagate gives the same covariance as predicting once over n dt.", "quantifier": "all filters, numbers of steps and step lengths", "why_tests_cant": "Any number of steps; the tests do not call the filter.", "anchors": ["src/oresat_adcs/classes/observers.py:DiscreteAttitudeStartrackerKalman.propagate", "src/oresat_adcs/classes/observers.py:DiscreteAttitudeStartrackerKalman.state_transition"]}
{"id": "C164", "title": "the uncertainty of the attitude filter settles", "statement": "With a star tracker reading followed by a prediction over dt, again and again at a constant corrected rate, the covariance of DiscreteAttitudeStartrackerKalman approaches one limit, whatever it was at first and whatever is read.", "quantifier": "all rates, time steps, initial covariances and sequences of readings", "why_tests_cant": "A limit over unboundedly many steps from all initial covariances.", "anchors": ["src/oresat_adcs/classes/observers.py:DiscreteAttitudeStartrackerKalman.propagate", "src/oresat_adcs/classes/observers.py:DiscreteAttitudeStartrackerKalman.state_transition", "src/oresat_adcs/classes/observers.py:DiscreteAttitudeStartrackerKalman.measurement"]}
{"id": "C165", "title": "the flight software answers every call", "statement": "Whichever messages of star tracker, gyro and wheels have come so far, UpdateState returns; from the start time of the controller on each call sends one message with the torques of the four wheels within the limit, before it none.", "quantifier": "all modules with a target, wheel inertia and time step, non-zero readings, times, messages that have come or not, and histories of calls", "why_tests_cant": "Every combination of missing messages, start times and debug output over any number of calls; the simulation writes all messages first.", "anchors": ["simulation/FlightSoftwareModule.py:FlightSoftware.__init__", "simulation/FlightSoftwareModule.py:FlightSoftware.Reset", "simulation/FlightSoftwareModule.py:FlightSoftware.UpdateState", "simulation/FlightSoftwareModule.py:FlightSoftware.command_wheel_torques", "simulation/FlightSoftwareModule.py:FlightSoftware.check_torque_vals"]}
{"id": "C166", "title": "exact readings lead the attitude filter to the truth", "statement": "When the star tracker reads the attitude exactly and the gyro reads the rate plus a constant bias, again and again every dt, the estimates of DiscreteAttitudeStartrackerKalman converge to the attitude and to the bias, if they are close at first.", "quantifier": "all constant rates that the filter can tell from a bias, biases, time steps, attitudes, initial covariances and small initial errors", "why_tests_cant": "A limit over unboundedly many steps of a nonlinear iteration from all nearby starts.", "anchors": ["src/oresat_adcs/classes/observers.py:DiscreteAttitudeStartrackerKalman.propagate", "src/oresat_adcs/classes/observers.py:DiscreteAttitudeStartrackerKalman.state_transition", "src/oresat_adcs/classes/observers.py:DiscreteAttitudeStartrackerKalman.measurement", "src/oresat_adcs/classes/observers.py:DiscreteAttitudeStartrackerKalman.reset"]}
{"id": "C167", "title": "a normalised vector has length one in floating point", "statement": "In binary64 arithmetic, with the norm summed in any order, normalize returns a vector with components of at most 1 and the right direction up to the last bits, so that the unclipped acos of error_angle and the root in quat_to_axis get valid arguments; and the norm computed from a normalised quaternion is exactly 1, as rotation_sequence_to_quaternion asserts.", "quantifier": "all non-zero vectors of at most four floats, roundings to nearest and orders of summation with or without fused multiply-add", "why_tests_cant": "All 2^64 values per component, and every way a BLAS may sum.", "anchors": ["src/oresat_adcs/functions/vector.py:normalize", "simulation/Quaternions.py:normalize", "simulation/Quaternions.py:quat_mult", "simulation/Quaternions.py:quat_error", "simulation/Quaternions.py:quat_to_axis", "simulation/Quaternions.py:error_angle", "simulation/Quaternions.py:rotation_sequence_to_quaternion"]}
{"id": "C168", "title": "saturation keeps the limit in floating point", "statement": "In binary64 arithmetic no component that saturation returns exceeds x_max, and a vector within the limit comes back unchanged.", "quantifier": "all arrays of floats, positive limits and roundings to nearest", "why_tests_cant": "The excess of one unit in the last place shows for few pairs of floats.", "anchors": ["src/oresat_adcs/functions/vector.py:saturation", "src/oresat_adcs/configuration/structure.py:ReactionWheelSystem.accelerations"]}
{"id": "C169", "title": "the clock keeps time in floating point", "statement": "In binary64 arithmetic, ticking Clock by 60/k seconds keeps the displayed time right and rolls every minute, however often it is ticked; absolute is the number of ticks times the step.", "quantifier": "all dates, steps 60/k for k up to 5.9 million, numbers of ticks and roundings to nearest", "why_tests_cant": "Rounding errors add up over unboundedly many ticks and meet a tolerance of 10 microseconds.", "anchors": ["src/oresat_adcs/classes/jday.py:Clock.tick"]}
{"id": "C170", "title": "Julian dates order the clocks", "statement": "In binary64 arithmetic the Julian date of a later JClock is greater.", "quantifier": "all pairs of clocks and roundings to nearest", "why_tests_cant": "All pairs of instants; neighbouring microseconds are not tested.", "anchors": ["src/oresat_adcs/classes/jday.py:JClock.julian_date"]}
{"id": "C171", "title": "rotation sequences are accepted in floating point", "statement": "In binary64 arithmetic rotation_sequence_to_quaternion returns a unit quaternion for every three angles and every three axes, instead of raising AssertionError.", "quantifier": "all triples of floats, axes, roundings to nearest and orders of summation", "why_tests_cant": "About one multi-axis sequence in fifty fails; which ones depends on the last bits of sines, products and sums.", "anchors": ["simulation/Quaternions.py:rotation_sequence_to_quaternion", "simulation/Quaternions.py:axis_angle_to_quaternion", "simulation/Quaternions.py:quat_mult", "simulation/Quaternions.py:normalize"]}
{"id": "C172", "title": "integrate counts its steps in floating point", "statement": "In binary64 arithmetic integrate with the simulator's step 0.05 and a duration of k*0.05 makes exactly k updates.", "quantifier": "all numbers of steps, durations, updates and roundings to nearest", "why_tests_cant": "The counter drifts by a rounding error per step; the first wrong count comes after 33 million steps.", "anchors": ["src/oresat_adcs/classes/dynamics.py:Integrator.integrate"]}
{"id": "C173", "title": "the simulator's clock does not drift in floating point", "statement": "In binary64 arithmetic JClock.tick of a step written for k microseconds advances the clock by exactly k microseconds, so that n ticks make n*k, and integrate over a duration of up to 83 hours moves the clock by exactly the duration.", "quantifier": "all whole microseconds up to 71 years, clocks, numbers of ticks and roundings to nearest", "why_tests_cant": "A drift would be one microsecond in unboundedly many ticks.", "anchors": ["src/oresat_adcs/classes/jday.py:JClock.tick", "src/oresat_adcs/classes/dynamics.py:Integrator.integrate"]}
{"id": "C174", "title": "noisy observations lead flae to the best attitude", "statement": "With non-negative weights that add up to 1 and observations that do not agree exactly, if one attitude explains them clearly better (in Wahba's sense) than all that are half a turn away from it, flae returns an attitude close to it; errors of the sensors move it by no more than about their own size divided by the margin.", "quantifier": "all numbers of observations, directions, weights, sensor errors and best attitudes", "why_tests_cant": "Real-valued errors of any number of sensors; the failing attitudes are a thin set that contains the identity.", "anchors": ["src/oresat_adcs/functions/attitude_estimation.py:flae"]}
{"id": "C175", "title": "only the ratios of the weights matter to flae", "statement": "Multiplying all weights by the same positive number does not change what flae returns.", "quantifier": "all exact observations, weights and factors", "why_tests_cant": "All real factors; Newton's method may find another root of the quartic.", "anchors": ["src/oresat_adcs/functions/attitude_estimation.py:flae"]}
{"id": "C176", "title": "the barbecue roll shares the sun among the sides", "statement": "With the attitude given by ecliptic_attitude the sun direction of SRP_info lies in the plane of the body's x and y axes, up to 0.0003, at any date within a century of 2000 and any position within 10000 km of the earth's centre; and over one turn of the roll (as a function of the clock's absolute) all panels standing on that plane get the same mean light, 1/pi of that of a panel facing the sun.", "quantifier": "all dates, positions, panel directions and sun directions", "why_tests_cant": "Dates, positions and panel directions are continuous; the mean is an integral.", "anchors": ["src/oresat_adcs/classes/controller.py:ReactionWheelsController.ecliptic_attitude", "src/oresat_adcs/configuration/environment.py:Environment.SRP_info"]}
{"id": "C177", "title": "the angle of the sun to the orbit decides about eclipses", "statement": "At a given time SRP_info reports a shadow somewhere on a circular orbit of radius r if and only if r times the sine of the angle between the sun and the plane of the orbit is less than the radius of the earth; and two places of the same radius that are both in shadow are less than 2*asin(R/r) apart, so that less than half of the orbit is.", "quantifier": "all orbital planes, radii from the earth's radius up to the distance of the sun, and dates", "why_tests_cant": "The claim is about all points of an orbit and all orbits.", "anchors": ["src/oresat_adcs/configuration/environment.py:Environment.SRP_info"]}
{"id": "C178", "title": "spins about the extreme axes are stable and the middle one turns over", "statement": "For a satellite left alone (wheels at rest, no command, no torque) the dynamics keep every spin close to the axis of the smallest or of the largest principal moment there for ever, by explicit bounds; about the axis of the middle moment there are motions that start as close to the spin as wanted and later spin the opposite way.", "quantifier": "all satellites, principal moments, rates, closenesses and times", "why_tests_cant": "For all time: the turning over can be delayed arbitrarily by starting closer to the axis.", "anchors": ["src/oresat_adcs/classes/dynamics.py:Dynamics.vector_field"]}
{"id": "C179", "title": "detumbling removes the angular momentum", "statement": "If the moment that detumble asks for acts (or at least a fixed part of it, as when currents are limited), the angular momentum of the satellite dies out, whatever its moments of inertia, its first rates and the field.", "quantifier": "all satellites, motions, fields (of fixed or steadily turning direction and any strength) and times", "why_tests_cant": "A limit for infinite time over all motions; along a fixed field nothing can be removed by any torquer command.", "anchors": ["src/oresat_adcs/classes/controller.py:MagnetorquerController.detumble", "src/oresat_adcs/classes/controller.py:MagnetorquerController.actuator_commands", "src/oresat_adcs/classes/dynamics.py:Dynamics.vector_field"]}
{"id": "C180", "title": "desaturation brings the wheels to the speeds asked for", "statement": "While track_and_desaturate holds the satellite at rest in its attitude and the torquers have the moment that desaturate asks for (or at least a fixed part of it), the wheels come to the speeds asked for in a steadily turning field, whatever the wheels.", "quantifier": "all satellites, wheel systems, attitudes, first speeds, reference speeds, turning fields and times", "why_tests_cant": "A limit for infinite time; a null motion of four wheels has no momentum and is never seen.", "anchors": ["src/oresat_adcs/classes/controller.py:MagnetorquerController.desaturate", "src/oresat_adcs/classes/controller.py:ReactionWheelsController.track_and_desaturate", "src/oresat_adcs/classes/dynamics.py:Dynamics.vector_field"]}
{"id": "C181", "title": "the gravity gradient keeps the long axis towards the earth", "statement": "On a circular orbit flown at its own rate, with the wheels at rest, the gravity torque of the library keeps a satellite as it is when the axis of its smallest moment of inertia points along the vertical and that of its largest along the normal of the orbit: at all later times the rate relative to the orbit and the deviations of both axes stay below bounds set by their first values, and a first axis that starts on one side of the horizon with little enough energy stays on that side. With a larger moment about the vertical than about the direction of flight it does not: arbitrarily close to that attitude and rate there is a motion that turns this axis away by a right angle.", "quantifier": "all satellites with positive definite inertia, all circular orbits, all motions and all later times; the second part for all satellites with diagonal inertia on equatorial orbits above the equatorial radius", "why_tests_cant": "A statement about all later times of a differential equation; a wrong sign or factor in the torque gives a torque of the right size at every tested attitude.", "anchors": ["src/oresat_adcs/classes/dynamics.py:Dynamics.gravity_F_and_T", "src/oresat_adcs/classes/dynamics.py:Dynamics.vector_field"]}
{"id": "C182", "title": "the avoidance law keeps instruments out of their forbidden regions", "statement": "While tracking runs with avoidance on, no instrument ever enters a region about the sun or the earth that is forbidden to it (or leaves one it has to stay in), if the motion starts outside and the commanded attitudes are outside, whatever the commands' motion and whatever bounded torques disturb the satellite.", "quantifier": "all satellites and controllers made by their constructors, instruments whose bounds are not right angles, commanded motions, disturbances, states and durations", "why_tests_cant": "The source says the law 'seems to work ok but needs proof'; no simulation covers all motions and disturbances, and the potential in the law is not that of its force.", "anchors": ["src/oresat_adcs/classes/controller.py:ReactionWheelsController.allowable_zone", "src/oresat_adcs/classes/controller.py:ReactionWheelsController.tracking", "src/oresat_adcs/configuration/structure.py:SensitiveInstrument.cares_about", "src/oresat_adcs/classes/dynamics.py:Dynamics.vector_field"]}
{"id": "C183", "title": "the avoidance law does not stop in front of the sun", "statement": "Tracking with avoidance brings the satellite to every commanded attitude outside the forbidden regions, from every start outside them; where attraction and repulsion are in balance the push takes it out.", "quantifier": "all satellites and controllers made by their constructors, half-angles, mountings, gains, commands and starts", "why_tests_cant": "The balance is at isolated attitudes that no sampled start meets, and lasts for ever.", "anchors": ["src/oresat_adcs/classes/controller.py:ReactionWheelsController.allowable_zone", "src/oresat_adcs/classes/controller.py:ReactionWheelsController.tracking", "src/oresat_adcs/classes/dynamics.py:Dynamics.vector_field"]}
{"id": "C184", "title": "the wheels keep within their greatest speed over whole runs", "statement": "In the simulated loop (samples, torques held between samples, rigid satellite with wheels) no wheel is ever faster than max_speed, if none is at the start.", "quantifier": "all gains of get_gain_matrix, targets, mountings, satellites, wheel inertias, sampling times, starts without total angular momentum, and all times", "why_tests_cant": "The check predicts one wheel at a time over one interval; the speed that counts is the result of all wheels and the satellite over any number of intervals.", "anchors": ["simulation/FlightSoftwareModule.py:FlightSoftware.check_torque_vals", "simulation/FlightSoftwareModule.py:FlightSoftware.UpdateState"]}
{"id": "C185", "title": "with nothing to correct the magnetorquers get no current", "statement": "When the wheels have exactly their reference speeds, desaturate returns three zero currents, and so does detumble for a gyro reading of zero, in every magnetic field.", "quantifier": "all finite nonzero fields, wheel momenta, inertia matrices with a positive diagonal, torquer types and greatest moments, and all roundings of the operations", "why_tests_cant": "The result turns on the sign of a floating-point zero, which compares equal to the other zero: a test field with three positive components passes.", "anchors": ["src/oresat_adcs/classes/controller.py:MagnetorquerController.actuator_commands", "src/oresat_adcs/classes/controller.py:MagnetorquerController.desaturate", "src/oresat_adcs/classes/controller.py:MagnetorquerController.detumble", "src/oresat_adcs/configuration/structure.py:MagnetorquerSystem.distribute"]}
{"id": "C186", "title": "the plotted error is the error at that time", "statement": "At the end of sim_main the curve of errors is drawn over the recorded times, and at each time it shows the angle of the error quaternion that the flight software computed last.", "quantifier": "all stop times, periods of the dynamics and of the flight software, and error quaternions", "why_tests_cant": "The stretch by ten is a literal in the code while the two periods are parameters; the default run has the one ratio that fits.", "anchors": ["simulation/ADCS_Simulation_Basilisk.py:sim_main", "simulation/ADCS_Simulation_Basilisk.py:plot_rw_speeds"]}
{"id": "C187", "title": "torque is given up only when the wheels cannot produce it", "statement": "When wheel torques within max_T exist that add up to a commanded torque, a torque-limited system delivers that torque in full: accelerations, put into torque, give it back.", "quantifier": "all arrangements of wheels that make a system, moments, limits and commands", "why_tests_cant": "The pseudo-inverse minimises the sum of squares, not the largest wheel torque; the source leaves the other method open ('right now we don't care'). How much is lost is a question about all torques at once.", "anchors": ["src/oresat_adcs/configuration/structure.py:ReactionWheelSystem.__init__", "src/oresat_adcs/configuration/structure.py:ReactionWheelSystem.accelerations", "src/oresat_adcs/configuration/structure.py:ReactionWheelSystem.torque"]}
{"id": "C188", "title": "a turn from rest is about one axis, through at most 215 degrees, and passes the command exactly if the damping is below 1", "statement": "From rest the tracking law turns the satellite about the fixed axis of the attitude error, never switches the sign of the error, and never gets farther from the command than at the start, which is less than 2 arccos(-0.3) (215 degrees) away. With damping of at least 1 the remaining angle only shrinks and never reaches zero or changes sign; with damping below 1 the satellite always passes the command.", "quantifier": "all controllers with positive damping and frequency, satellites with wheels of unlimited torque, commands, attitudes and memories of the trigger, all times", "why_tests_cant": "The law is nonlinear and the turn is made in three dimensions: 'critical damping' is taken from the linearised system, and what the hysteresis gives up of the shortest path is seen in no single run.", "anchors": ["src/oresat_adcs/classes/controller.py:MayhewTrigger.step", "src/oresat_adcs/classes/controller.py:ReactionWheelsController.__init__", "src/oresat_adcs/classes/controller.py:ReactionWheelsController.tracking", "src/oresat_adcs/classes/dynamics.py:Dynamics.vector_field"]}
{"id": "C189", "title": "orbits close after the time of Kepler's third law", "statement": "Position and velocity at one time determine the motion under gravity_accel. Without the oblateness terms, every motion with negative energy and some angular momentum can go on for ever, returns to its position with the same velocity after exactly 2 pi sqrt(a^3/MU), where a is the half-axis given by the energy, and does not return earlier.", "quantifier": "all motions on any interval of time, all initial positions and velocities", "why_tests_cant": "A statement about exact solutions of the differential equation over whole orbits; a run of the simulator has the errors of its steps.", "anchors": ["src/oresat_adcs/configuration/environment.py:Environment.gravity_accel", "src/oresat_adcs/configuration/environment.py:OrbitalEnvironment.gravity_accel"]}
{"id": "C190", "title": "satellites keep their energy in the high-fidelity field", "statement": "Along every motion outside of the Earth with the acceleration of hi_fi_gravity, kinetic energy plus the potential with the J2, J3 and J4 terms stays what it was.", "quantifier": "all motions on any interval of time", "why_tests_cant": "The drift is a ten-thousandth of the exchanged energy or less; no test tolerates so little, and the orbit hides it for half a turn.", "anchors": ["src/oresat_adcs/configuration/environment.py:Environment.hi_fi_gravity", "src/oresat_adcs/configuration/environment.py:Environment.gravity_accel"]}
{"id": "C191", "title": "the oblateness terms turn the planes of orbits as they should", "statement": "In the high-fidelity field the node of an orbit outside of the Earth moves westwards for satellites that go round with the Earth, eastwards for those that go against it and not at all for polar orbits, at all times at which the satellite is at least 0.002 of its distance away from the plane of the equator; averaged over a circular orbit it moves by -3/2 J2 (R/r)^2 n cos i, up to 0.6 percent of this.", "quantifier": "all motions, all radii and inclinations", "why_tests_cant": "The sign at every moment and the mean over an orbit for all orbits at once; the wrong signs of J3 and J4 (C49) could have spoiled both.", "anchors": ["src/oresat_adcs/configuration/environment.py:Environment.hi_fi_gravity", "src/oresat_adcs/configuration/environment.py:Environment.gravity_accel"]}
{"id": "C192", "title": "the motion that a simulation approximates exists, is the only one and can be played backwards", "statement": "The equations of motion of vector_field under gravity and its gradient torque have at most one solution through each state; along every orbit outside of the Earth the solution, with attitude, body rate and wheel speeds, exists as long as the orbit does, whatever the rates. For the central field and an orbit with its perigee outside of the Earth it exists for all times, and up to any time every simulation with a step that is short enough runs through and is within a constant times dt^4 of it. With velocities, body rate and wheel speeds reversed the motion is retraced.", "quantifier": "all satellites, states with unit quaternions, constant wheel accelerations, durations", "why_tests_cant": "Existence for all times is about the unbounded nonlinear gyroscopic terms; a test sees finitely many steps of an approximation and cannot tell whether there is a motion that it approximates.", "anchors": ["src/oresat_adcs/classes/dynamics.py:Dynamics.vector_field", "src/oresat_adcs/classes/dynamics.py:Dynamics.gravity_F_and_T", "src/oresat_adcs/classes/dynamics.py:Integrator.RK4_step", "src/oresat_adcs/classes/dynamics.py:Integrator.update", "src/oresat_adcs/configuration/environment.py:Environment.gravity_accel", "src/oresat_adcs/configuration/environment.py:OrbitalEnvironment.gravity_accel"]}
{"id": "C193", "title": "a reading that is no attitude does not drive the wheels", "statement": "When the star tracker reports a quaternion of zeros or one with nan or an infinity in it, or the gyro reports nan, UpdateState commands no torque to the wheels.", "quantifier": "all floats for the readings, the gains and the limits, nan and infinities included, all roundings, all histories", "why_tests_cant": "nan passes through every comparison with an answer that no test with numbers sees, and the order of the arguments of min and max decides what becomes of it.", "anchors": ["simulation/FlightSoftwareModule.py:FlightSoftware.UpdateState", "simulation/FlightSoftwareModule.py:FlightSoftware.check_torque_vals", "simulation/FlightSoftwareModule.py:FlightSoftware.check_hemi", "simulation/FlightSoftwareModule.py:FlightSoftware.quaternion_controller", "simulation/FlightSoftwareModule.py:FlightSoftware.convert_torque_to_wheels", "simulation/Quaternions.py:normalize", "simulation/Quaternions.py:quat_mult", "simulation/Quaternions.py:quat_error", "simulation/Quaternions.py:error_angle"]}
{"id": "C194", "title": "without a measurement the magnetorquers get no current", "statement": "When the magnetometer reports zeros or nan, the gyro reading of detumble or a wheel speed of desaturate is nan, no torquer is commanded a current, whether the controller is bang-bang or not.", "quantifier": "all floats for the readings, all torquers, all roundings, all histories of a bang-bang controller", "why_tests_cant": "nan compares as false with everything, so that the memory of a trigger and the limit of the moment depend on where it stands.", "anchors": ["src/oresat_adcs/classes/controller.py:MagnetorquerController.actuator_commands", "src/oresat_adcs/classes/controller.py:MagnetorquerController.desaturate", "src/oresat_adcs/classes/controller.py:MagnetorquerController.detumble", "src/oresat_adcs/classes/controller.py:MayhewTrigger.step", "src/oresat_adcs/classes/controller.py:MayhewTrigger.sign", "src/oresat_adcs/configuration/structure.py:MagnetorquerSystem.distribute", "src/oresat_adcs/configuration/structure.py:ReactionWheelSystem.momentum"]}
{"id": "C195", "title": "a bad reading does not spoil the attitude filter for good", "statement": "When the star tracker or the gyro reports nan once, later readings that are numbers lead DiscreteAttitudeStartrackerKalman back to an estimate that is a number; and a star tracker reading of zeros is not taken for a measurement.", "quantifier": "all floats for the readings, all roundings, all filters and sequences of measurement and propagate", "why_tests_cant": "That nothing brings the estimate back is a statement about all later sequences of calls; the zero quaternion is only seen in the covariance, which looks like after a good measurement.", "anchors": ["src/oresat_adcs/classes/observers.py:DiscreteAttitudeStartrackerKalman.measurement", "src/oresat_adcs/classes/observers.py:DiscreteAttitudeStartrackerKalman.propagate", "src/oresat_adcs/classes/observers.py:DiscreteAttitudeStartrackerKalman.state_transition", "src/oresat_adcs/classes/observers.py:DiscreteAttitudeStartrackerKalman.reset", "src/oresat_adcs/functions/quaternion.py:product", "src/oresat_adcs/functions/quaternion.py:error_quat", "src/oresat_adcs/functions/quaternion.py:xi", "src/oresat_adcs/functions/vector.py:normalize"]}
{"id": "C196", "title": "the sidereal angle is that of the almanac", "statement": "theta_gmst is the Greenwich mean sidereal time of the almanacs (IAU 1982) at the instant of the clock, as an angle, up to a microradian: for Clock from 1900 to 2099 and for JClock from 1800 to 2200, at all instants.", "quantifier": "all instants the clocks can hold in these years, fractions of seconds included", "why_tests_cant": "The repository evaluates the polynomial at midnight and adds the turn since then; that this is the almanac's polynomial at the instant, and what becomes of the fraction of a second, is about all instants. The test prints four whole hours.", "anchors": ["src/oresat_adcs/classes/jday.py:Clock.gmst_seconds", "src/oresat_adcs/classes/jday.py:Clock.theta_gmst", "src/oresat_adcs/classes/jday.py:Clock.centuries_elapsed", "src/oresat_adcs/classes/jday.py:JClock.gmst_seconds", "src/oresat_adcs/classes/jday.py:JClock.theta_gmst", "src/oresat_adcs/classes/jday.py:JClock.centuries_elapsed"]}
{"id": "C197", "title": "the attitude motions exist from every state", "statement": "From every attitude and every rate there is a motion of the satellite for all later times and only one: without torques, under gravity on a circular orbit, and under the moment that detumble asks for in any smooth field that is nowhere zero. In a field that turns steadily that motion comes to rest exponentially fast, whatever the tumble.", "quantifier": "all satellites that can be built, all attitudes, all rates, all smooth nonzero fields", "why_tests_cant": "The statements about motions (C146, C179, C181) say something about a tumble only if there is a motion that starts with it; existence for all times from all states cannot be sampled.", "anchors": ["src/oresat_adcs/classes/controller.py:MagnetorquerController.detumble", "src/oresat_adcs/classes/controller.py:MagnetorquerController.actuator_commands", "src/oresat_adcs/classes/dynamics.py:Dynamics.vector_field", "src/oresat_adcs/classes/dynamics.py:Dynamics.gravity_F_and_T"]}
{"id": "C198", "title": "margins with a delay can be relied on", "statement": "With delay_s, axis_margins finds the crossover where it is without, and a phase margin that is less by the crossover times the delay. With half of the sampling time for delay_s, as its comment suggests, every multiple of a gain of get_gain_matrix that is within the reported gain margin keeps the sampled loop stable.", "quantifier": "all positive principal moments, sampling times, limits, delays, frequencies and multiples", "why_tests_cant": "Both the reported number and the true limit depend on the solution of a Riccati equation; that one exceeds the other in every design cannot be found out by trying designs.", "anchors": ["simulation/Stability Analysis.py:axis_margins", "simulation/ADCS_Discrete_State_Space_Calculator.py:get_gain_matrix"]}
{"id": "C199", "title": "the uncertainty of a predicted velocity depends on the time ahead", "statement": "However many calls of DiscretePositionKalman.propagate a time ahead is divided into, the covariance P stays below a bound that depends on the filter and that time only.", "quantifier": "all filters whose estimated orbit has angular momentum, all covariances, all times ahead, all numbers of calls", "why_tests_cant": "A test runs one step size; the noise is added once per call, and what that does to the covariance as the calls get shorter is a limit over all numbers of calls.", "anchors": ["src/oresat_adcs/classes/observers.py:DiscretePositionKalman.propagate", "src/oresat_adcs/classes/observers.py:DiscretePositionKalman.state_transition", "src/oresat_adcs/classes/observers.py:DiscretePositionKalman.F_continuous"]}
{"id": "C200", "title": "in a field that turns, the barbecue roll reaches the wanted spin", "statement": "On a satellite that is symmetric about its z axis, in a magnetic field that turns steadily in any plane, the moment that no_q_bbq_roll asks for brings every motion whose error is below that of a satellite at rest to the wanted spin: 0.02932 rad/s about the z axis, pointed to the pole of the ecliptic.", "quantifier": "all symmetric satellites, planes, rates and strengths of the field, all starts", "why_tests_cant": "A statement about the limits of all motions of a nonlinear system with a torque that is missing along the field; whether some motion escapes the torque for ever is not seen in runs of finite length from sampled starts.", "anchors": ["src/oresat_adcs/classes/controller.py:MagnetorquerController.no_q_bbq_roll", "src/oresat_adcs/classes/controller.py:MagnetorquerController.actuator_commands", "src/oresat_adcs/classes/controller.py:MagnetorquerController.__init__"]}
{"id": "C201", "title": "detumbling works with commands that are held between samples", "statement": "When detumble is asked at regular intervals, and the moment it asks for is held until the next time, the angular momentum across a constant magnetic field dies out, whatever the satellite, the interval and the tumble it starts with.", "quantifier": "all satellites that can be built, all attitudes and rates at the start, all intervals, all fields, all numbers of samples", "why_tests_cant": "The motion between the samples is that of a pendulum driven by an old measurement; that there is a rate at which nothing is ever gained is seen only when the rate and the interval match exactly, and that slower ones lose at every sample is a statement about all runs.", "anchors": ["src/oresat_adcs/classes/controller.py:MagnetorquerController.detumble", "src/oresat_adcs/classes/controller.py:MagnetorquerController.actuator_commands", "src/oresat_adcs/classes/controller.py:MagnetorquerController.__init__", "src/oresat_adcs/classes/dynamics.py:Dynamics.vector_field"]}
{"id": "C202", "title": "estimates that were handed out stay as they were", "statement": "The arrays that DiscreteAttitudeStartrackerKalman.output returns keep their numbers, whatever is done with the filter and with other filters afterwards: a caller can collect them in a list, as examples/observer_example.py does with those of the position filter, and compare them later.", "quantifier": "all programs that create arrays and filters and call measurement and propagate on them in any order", "why_tests_cant": "A test that compares an estimate right after it was returned sees nothing; whether an array is written to later depends on every later call of every filter that may refer to it.", "anchors": ["src/oresat_adcs/classes/observers.py:DiscreteAttitudeStartrackerKalman.output", "src/oresat_adcs/classes/observers.py:DiscreteAttitudeStartrackerKalman.reset", "src/oresat_adcs/classes/observers.py:DiscreteAttitudeStartrackerKalman.measurement", "src/oresat_adcs/classes/observers.py:DiscreteAttitudeStartrackerKalman.propagate", "src/oresat_adcs/classes/observers.py:DiscreteAttitudeStartrackerKalman.__init__"]}
{"id": "C203", "title": "a position filter leaves the simulated satellite alone", "statement": "When a DiscretePositionKalman is made from the state object of a simulator, nothing that is done with the filter changes the position or any other part of the simulated satellite.", "quantifier": "all states, simulators, programs of integrate, update and propagate", "why_tests_cant": "Whether the two refer to one object depends on the history of calls; the numbers written are plausible, since they are an estimate of the same position.", "anchors": ["src/oresat_adcs/classes/observers.py:DiscretePositionKalman.__init__", "src/oresat_adcs/classes/observers.py:DiscretePositionKalman.update", "src/oresat_adcs/classes/observers.py:DiscretePositionKalman.propagate", "src/oresat_adcs/classes/dynamics.py:Integrator.update", "src/oresat_adcs/classes/dynamics.py:Integrator.integrate", "src/oresat_adcs/classes/dynamics.py:SatelliteState.update"]}
{"id": "C204", "title": "tracking works with commands that are held between samples", "statement": "When tracking is asked at regular intervals, with no object to be avoided near, and the accelerations of the wheels that it asks for are held until the next time, the satellite comes to rest in the commanded attitude, up to the sign of its quaternion, whatever the satellite, the interval, its rate and the speeds of its wheels.", "quantifier": "all satellites that can be built, all positive damping ratios and natural frequencies, all commanded attitudes, all states at the start, all intervals, all numbers of samples", "why_tests_cant": "A test runs a few intervals from a few states; that one choice of interval serves all states up to a bound, and that too long an interval leaves motions that get no command at any sample, are statements about all runs.", "anchors": ["src/oresat_adcs/classes/controller.py:ReactionWheelsController.tracking", "src/oresat_adcs/classes/controller.py:ReactionWheelsController.actuator_commands", "src/oresat_adcs/classes/controller.py:ReactionWheelsController.__init__", "src/oresat_adcs/classes/controller.py:MayhewTrigger.step", "src/oresat_adcs/classes/controller.py:MayhewTrigger.sign", "src/oresat_adcs/classes/dynamics.py:Dynamics.vector_field"]}
{"id": "C205", "title": "tracking with wheels of limited torque", "statement": "With torque_limited wheels, however small the limit: tracking never speeds the satellite up beyond the larger of its energy at the start and a bound set by the gains; with any limit above zero the energy falls exponentially to that bound, and once the error is small enough for the angular momentum on board, the satellite converges to the commanded attitude exactly as with unlimited wheels. It cannot stop faster than the wheels' torque allows.", "quantifier": "all satellites with positive definite inertia, all limits, all positive gains, all commanded attitudes, all states at the start, all runs with any number of switches of the sign", "why_tests_cant": "How much of the commanded torque is delivered changes at every instant with the state, and so does the direction of the gyroscopic torque that is left over; a test sees a few runs, of which a slow one says nothing about the limit.", "anchors": ["src/oresat_adcs/classes/controller.py:ReactionWheelsController.tracking", "src/oresat_adcs/classes/controller.py:ReactionWheelsController.actuator_commands", "src/oresat_adcs/classes/controller.py:MayhewTrigger.step", "src/oresat_adcs/classes/controller.py:MayhewTrigger.sign", "src/oresat_adcs/configuration/structure.py:ReactionWheelSystem.accelerations", "src/oresat_adcs/configuration/structure.py:ReactionWheelSystem.torque", "src/oresat_adcs/functions/vector.py:saturation", "src/oresat_adcs/classes/dynamics.py:Dynamics.vector_field"]}
{"id": "C206", "title": "the satellite of the examples", "statement": "helper.make_satellite and template_objects.make_satellite give the same satellite, the currents that the examples simulate are within the limits of its torquers, and the satellite can be pointed: its torque-limited wheels produce every torque up to 0.65 mN m, and a ReactionWheelsController with the damping of the manager turns it from rest to every commanded attitude.", "quantifier": "all commanded and initial attitudes, all torques, all runs of the closed loop", "why_tests_cant": "That the examples run does not show that what they simulate is possible with the hardware they describe; pointing from every attitude with limited wheels is a statement about all runs.", "anchors": ["examples/utility/helper.py:make_satellite", "examples/utility/template_objects.py:make_satellite", "examples/simulator_example.py:make_satellite", "src/oresat_adcs/configuration/structure.py:Satellite.__init__", "src/oresat_adcs/configuration/structure.py:ReactionWheelSystem.__init__", "src/oresat_adcs/configuration/structure.py:ReactionWheelSystem.accelerations", "src/oresat_adcs/configuration/structure.py:MagnetorquerSystem.actuate", "src/oresat_adcs/classes/controller.py:ReactionWheelsController.tracking", "src/oresat_adcs/classes/controller.py:ReactionWheelsController.__init__"]}
{"id": "C207", "title": "turns from rest reach the command whatever the torque limit", "statement": "A satellite with torque_limited wheels, however small the limit and whatever the positive gains of its ReactionWheelsController, that starts at rest and whose angular momentum with the wheels is zero, turns about one axis, never farther from the command than at the start, changes the sign of its command at most once, at the very start, and comes to rest in the commanded attitude exponentially. The rate of that does not depend on the angle to be turned.", "quantifier": "all satellites that can be built, all limits above zero, all positive gains, all commanded and initial attitudes, all memories of the trigger, all runs", "why_tests_cant": "While the limit binds, the response is not that of the linear law that tests compare with, and whether a slow controller with an actuator that saturates converges from every angle is a statement about all runs; tests see a few.", "anchors": ["src/oresat_adcs/classes/controller.py:ReactionWheelsController.tracking", "src/oresat_adcs/classes/controller.py:ReactionWheelsController.actuator_commands", "src/oresat_adcs/classes/controller.py:MayhewTrigger.step", "src/oresat_adcs/classes/controller.py:MayhewTrigger.sign", "src/oresat_adcs/configuration/structure.py:ReactionWheelSystem.accelerations", "src/oresat_adcs/configuration/structure.py:ReactionWheelSystem.torque", "src/oresat_adcs/functions/vector.py:saturation", "src/oresat_adcs/classes/dynamics.py:Dynamics.vector_field"]}
{"id": "C208", "title": "the position filter follows the satellite while fixes keep coming", "statement": "A DiscretePositionKalman that gets a fix each second and predicts the next second in between never raises, forgets the error it started with, and stays near the satellite for ever: after each fix its error is at most a bounded number of standard deviations of a fix, in proportion to the errors of the fixes and to how far the acceleration of the satellite is from that of the filter's model of the motion.", "quantifier": "all numbers of seconds, all motions 6500 to 10000 km from the centre of the Earth, all initial errors up to some kilometres, all bounded errors of the fixes", "why_tests_cant": "The gain changes with every call and depends on all earlier estimates, and the prediction of the estimate and that of its covariance use different matrices; that no sequence of them drifts off is a statement about runs of any length.", "anchors": ["src/oresat_adcs/classes/observers.py:DiscretePositionKalman.__init__", "src/oresat_adcs/classes/observers.py:DiscretePositionKalman.update", "src/oresat_adcs/classes/observers.py:DiscretePositionKalman.propagate", "src/oresat_adcs/classes/observers.py:DiscretePositionKalman.state_transition", "src/oresat_adcs/classes/observers.py:DiscretePositionKalman.F_continuous", "examples/observer_example.py:__main__"]}
{"id": "C209", "title": "a position filter is as good as its fixes", "statement": "A DiscretePositionKalman that starts at the true state of a satellite on a circular orbit and gets an exact fix each second is never further off than three standard deviations of a fix.", "quantifier": "all circular orbits of 6500 to 8300 km radius, all numbers of seconds", "why_tests_cant": "That more measurements make an estimate better is taken for granted; the error that a model of the motion made for one orbit leaves on another is a property of the covariance after many steps, and a test on the orbit the constants were fitted to sees nothing.", "anchors": ["src/oresat_adcs/classes/observers.py:DiscretePositionKalman.__init__", "src/oresat_adcs/classes/observers.py:DiscretePositionKalman.update", "src/oresat_adcs/classes/observers.py:DiscretePositionKalman.propagate", "src/oresat_adcs/classes/observers.py:DiscretePositionKalman.state_transition", "src/oresat_adcs/classes/observers.py:DiscretePositionKalman.F_continuous"]}
{"id": "C210", "title": "the tracking law does not rely on the exact inertia", "statement": "A ReactionWheelsController turns the satellite to the commanded attitude although the total_moment it was made with is not that of the satellite that flies: for each controller there is a tolerance such that every satellite whose inertia is within it is brought to rest in the command from every tumble, exponentially, and under disturbing torques to an error in proportion to them. However wrong the inertia is, the satellite is not spun up.", "quantifier": "all satellites that can be built, all positive gains, all inertias within the tolerance, all commands, all initial attitudes and rates, all runs with any switches of the sign", "why_tests_cant": "The inertia that is configured is a measurement or an estimate, while simulations give the controller the exact one, so that the gyroscopic terms cancel; tests with the same object on both sides do not see what is left over, and its effect on convergence is a statement about all runs.", "anchors": ["src/oresat_adcs/classes/controller.py:ReactionWheelsController.__init__", "src/oresat_adcs/classes/controller.py:ReactionWheelsController.tracking", "src/oresat_adcs/classes/controller.py:MayhewTrigger.step", "src/oresat_adcs/classes/controller.py:MayhewTrigger.sign", "src/oresat_adcs/configuration/structure.py:Satellite.__init__", "src/oresat_adcs/configuration/structure.py:ReactionWheelSystem.accelerations", "src/oresat_adcs/configuration/structure.py:ReactionWheelSystem.torque", "src/oresat_adcs/configuration/structure.py:ReactionWheelSystem.momentum", "src/oresat_adcs/classes/dynamics.py:Dynamics.vector_field"]}
{"id": "C211", "title": "tracking tolerates readings that are not exact", "statement": "A ReactionWheelsController turns the satellite to the commanded attitude although the attitude, rate and wheel speeds it is given are off: for each controller there is a tolerance such that with errors within it, whatever they do from call to call, the satellite comes exponentially within a distance of the command that is in proportion to the errors and to the disturbing torques, and the sign of the feedback switches finitely often. A gyro with a constant error leaves the satellite resting beside the command, by gamma / alpha times the error.", "quantifier": "all satellites that can be built, all positive gains, all half widths between 0 and 1, all bounds on the rate, the torques and the momentum of the wheels, all errors within the tolerance, all commands, all runs", "why_tests_cant": "Noise enters the law through products of readings and through a switch that remembers; that no sequence of errors makes it chatter or drives it away is a statement about all noise signals, while tests use one sample of it or none.", "anchors": ["src/oresat_adcs/classes/controller.py:ReactionWheelsController.__init__", "src/oresat_adcs/classes/controller.py:ReactionWheelsController.tracking", "src/oresat_adcs/classes/controller.py:MayhewTrigger.step", "src/oresat_adcs/classes/controller.py:MayhewTrigger.sign", "src/oresat_adcs/configuration/structure.py:ReactionWheelSystem.accelerations", "src/oresat_adcs/configuration/structure.py:ReactionWheelSystem.momentum", "src/oresat_adcs/classes/dynamics.py:Dynamics.vector_field", "src/oresat_adcs/classes/sensor.py:Sensor.measurement", "src/oresat_adcs/classes/sensor.py:StarTracker.generate_noise", "src/oresat_adcs/classes/sensor.py:Gyro.generate_noise"]}
{"id": "C212", "title": "tracking converges in simulations by the integrator", "statement": "In a simulation that asks a ReactionWheelsController for accelerations of the wheels, calls Integrator.update some times with them and goes on like that, the satellite comes to rest in the commanded attitude exponentially, to zero and not to a floor set by the step: for all tumbles up to a bound there are a step and a rate that serve them all, and the rate does not depend on the step. The wheels stay bounded and the sign of the feedback is not switched for ever. With disturbing torques the error is in proportion to them.", "quantifier": "all satellites that can be built, all positive gains, all half widths between 0 and 1, all commands, all numbers of steps per command and of commands, all states at the start up to a bound, all forces on the satellite and all torques up to a bound that may differ in every call of the vector field", "why_tests_cant": "What is simulated are not the equations but the RK4 steps of SatelliteState.update with a normalisation after each; that their errors do not add up to a drift or an oscillation about the command is a statement about runs of any length, and a test sees runs of one length from one state.", "anchors": ["src/oresat_adcs/classes/dynamics.py:Integrator.update", "src/oresat_adcs/classes/dynamics.py:Integrator.RK4_step", "src/oresat_adcs/classes/dynamics.py:Dynamics.vector_field", "src/oresat_adcs/classes/dynamics.py:SatelliteState.update", "src/oresat_adcs/classes/dynamics.py:SatelliteState.__add__", "src/oresat_adcs/classes/controller.py:ReactionWheelsController.__init__", "src/oresat_adcs/classes/controller.py:ReactionWheelsController.tracking", "src/oresat_adcs/classes/controller.py:ReactionWheelsController.actuator_commands", "src/oresat_adcs/classes/controller.py:MayhewTrigger.step", "src/oresat_adcs/classes/controller.py:MayhewTrigger.sign", "src/oresat_adcs/configuration/structure.py:ReactionWheelSystem.accelerations", "src/oresat_adcs/configuration/structure.py:ReactionWheelSystem.momentum"]}
{"id": "C213", "title": "the wheels can hold the satellite against its environment", "statement": "The torque that env_F_and_T gives is bounded for all attitudes, dates and places by the size of the box, its drag coefficient and absorption, its inertia, its distance from the Earth and its speed, and the moment of the magnetorquers. On the satellite of the examples in low orbits it is at most a quarter of a micronewton metre while the magnetorquers are off; its wheels can keep it at rest in every attitude, with magnetorquers of up to ten ampere square metres on.", "quantifier": "all satellites that can be built, all states with attributes that belong to their arrays, all dates, both gravity models, all currents, quaternions of any length", "why_tests_cant": "The torques depend on attitude, date and place through the walls that are exposed, the shadow, the height and the turning field of the Earth; a test sees some of these, and the bound that pointing relies on is the worst case over all of them.", "anchors": ["src/oresat_adcs/classes/dynamics.py:Dynamics.env_F_and_T", "src/oresat_adcs/classes/dynamics.py:Dynamics.solar_F_and_T", "src/oresat_adcs/classes/dynamics.py:Dynamics.drag_F_and_T", "src/oresat_adcs/classes/dynamics.py:Dynamics.gravity_F_and_T", "src/oresat_adcs/classes/dynamics.py:Dynamics.vector_field", "src/oresat_adcs/configuration/structure.py:Wall.srp_force", "src/oresat_adcs/configuration/structure.py:Wall.drag_force", "src/oresat_adcs/configuration/structure.py:Wall.center_of_pressure", "src/oresat_adcs/configuration/structure.py:Wall.projected_area", "src/oresat_adcs/configuration/structure.py:ReactionWheelSystem.accelerations", "examples/utility/helper.py:make_satellite"]}
{"id": "C214", "title": "near the command, tracking works whatever the inertia", "statement": "However wrong the inertia is that a ReactionWheelsController was made with, there is a neighbourhood of the commanded attitude at rest from which it brings the satellite that flies to the command exponentially, without ever switching the sign of the feedback; under disturbing torques the error that is left is in proportion to them. The neighbourhood is the same for all commands and for all speeds of the wheels.", "quantifier": "all satellites that can be built, all positive gains, all positive definite inertias of the satellite that flies, all half widths between 0 and 1, all commands, all small disturbances, all runs", "why_tests_cant": "A controller tuned on the wrong inertia could oscillate with growing amplitude; that no pair of inertias makes it do so is a statement about all matrices, and a test takes one or two.", "anchors": ["src/oresat_adcs/classes/controller.py:ReactionWheelsController.__init__", "src/oresat_adcs/classes/controller.py:ReactionWheelsController.tracking", "src/oresat_adcs/classes/controller.py:MayhewTrigger.step", "src/oresat_adcs/classes/controller.py:MayhewTrigger.sign", "src/oresat_adcs/configuration/structure.py:Satellite.__init__", "src/oresat_adcs/configuration/structure.py:ReactionWheelSystem.accelerations", "src/oresat_adcs/configuration/structure.py:ReactionWheelSystem.torque", "src/oresat_adcs/configuration/structure.py:ReactionWheelSystem.momentum", "src/oresat_adcs/classes/dynamics.py:Dynamics.vector_field"]}
{"id": "C215", "title": "a bad fix does not spoil the position filter for good", "statement": "When the GPS reports nan or an infinity once, in any component of position or velocity, later fixes that are numbers lead DiscretePositionKalman back to an estimate that is a number.", "quantifier": "all filters, all fixes with nan or an infinity somewhere, all later sequences of update and propagate with any arguments, any rounding of the arithmetic", "why_tests_cant": "Receivers without a fix report such values now and then; whether the estimate recovers depends on all later calls, and tests feed the filter with numbers.", "anchors": ["src/oresat_adcs/classes/observers.py:DiscretePositionKalman.update", "src/oresat_adcs/classes/observers.py:DiscretePositionKalman.propagate", "src/oresat_adcs/classes/observers.py:DiscretePositionKalman.state_transition", "src/oresat_adcs/classes/observers.py:DiscretePositionKalman.F_continuous", "src/oresat_adcs/classes/observers.py:DiscretePositionKalman.output"]}
{"id": "C216", "title": "errors of the measured directions lead to errors of the TRIAD attitude of the same size", "statement": "When triad_algorithm is given unit measurements that are off by at most eps from the directions r1, r2 as seen in the true attitude, and 2 eps is less than the sine of the angle between r1 and r2, it returns a unit quaternion whose sandwich differs from that of the true attitude by at most 6.5 eps / sine; nothing better than eps / sine holds. The first measured direction is reproduced exactly; the length of the second and its part along the first do not matter.", "quantifier": "all attitudes, all pairs of directions, all measurements within the bound except b1 == -r1", "why_tests_cant": "The algorithm has two branches and divides by quantities that can be small; that it is as well conditioned as the problem is a statement about all errors and attitudes, while tests use exact or a few noisy directions.", "anchors": ["src/oresat_adcs/functions/attitude_estimation.py:triad_algorithm"]}
{"id": "C217", "title": "point_and_stare brings the boresight to the target and keeps it there", "statement": "A satellite under point_and_stare turns its boresight to the target and then turns with the line of sight: the angle between them and the difference of the rates decrease exponentially, to zero when the direction of the target is fixed and otherwise to an error in proportion to the disturbing torque and to the acceleration of the line of sight.", "quantifier": "all satellites that can be built, all positive gains, all boresights, all targets and orbits whose line of sight turns slowly enough, all states at the start", "why_tests_cant": "The reference moves and is computed anew in each call from the state, the feedback has a switch that remembers earlier manoeuvres, and convergence is a statement about all starts and all times; a test follows one pass of one target.", "anchors": ["src/oresat_adcs/classes/controller.py:ReactionWheelsController.acquire_target", "src/oresat_adcs/classes/controller.py:ReactionWheelsController.point_and_stare", "src/oresat_adcs/classes/controller.py:ReactionWheelsController.tracking", "src/oresat_adcs/classes/controller.py:MayhewTrigger.step", "src/oresat_adcs/classes/controller.py:MayhewTrigger.sign", "src/oresat_adcs/classes/dynamics.py:Dynamics.vector_field"]}
{"id": "C218", "title": "errors of the known position spoil the aim in proportion to the distance", "statement": "When point_and_stare is called with a position and a velocity that are off, the attitude that it commands points the boresight beside the true target by at most twice the error of the position over the sum of the true and the assumed distance, whatever the attitude; at equal distances by exactly the error over the distance. The rate that it commands is off by at most the error of the velocity over the distance plus the speed times the error of the position over the product of the distances.", "quantifier": "all unit attitudes, unit boresights, positions, velocities and their errors, all targets except one exactly behind the boresight", "why_tests_cant": "The commanded attitude is computed from an angle, an axis and a product of quaternions, each of which could amplify an error near special angles; that the composition never does is a statement about all geometries, and tests use the exact position.", "anchors": ["src/oresat_adcs/classes/controller.py:ReactionWheelsController.acquire_target", "src/oresat_adcs/classes/controller.py:ReactionWheelsController.point_and_stare", "src/oresat_adcs/functions/vector.py:pointing_vector", "src/oresat_adcs/functions/vector.py:R_axis_angle"]}
{"id": "C219", "title": "as the readings become exact, so does tracking", "statement": "When a ReactionWheelsController is fed from a filter whose estimate converges, so that the errors of attitude, rate and wheel speeds stay within a tolerance and fade away, and the disturbing torques fade away too, then the satellite comes to rest exactly in the commanded attitude, and after some time the sign of the feedback never switches again.", "quantifier": "all satellites that can be built, all positive gains, all half widths between 0 and 1, all commands, all errors within the tolerance that tend to zero however slowly and in whatever way, all states at the start up to a bound on the rate", "why_tests_cant": "A limit over infinitely many calls cannot be tested, and small errors at the wrong moment could switch the sign of the feedback again and again.", "anchors": ["src/oresat_adcs/classes/controller.py:ReactionWheelsController.tracking", "src/oresat_adcs/classes/controller.py:MayhewTrigger.step", "src/oresat_adcs/classes/controller.py:MayhewTrigger.sign", "src/oresat_adcs/classes/dynamics.py:Dynamics.vector_field"]}
{"id": "C220", "title": "the angles of a rounded quaternion are computed, and in range", "statement": "In binary64 arithmetic _quat2equatorial never raises for a quaternion that normalize returned, although the sine of its declination can come out beyond 1; the angles that it returns are those of the rotation matrix of the quaternion up to 1e-14 (the sine of the declination; the points of the matrix to which right ascension and roll belong); right ascension and roll are in [0, 360) and the declination in [-90, 90].", "quantifier": "all non-zero quaternions of floats, all ways of breaking ties, all orders of summation in the norm, all arctangents within one unit in the last place", "why_tests_cant": "Whether the last bits go the wrong way depends on the quaternion in no visible pattern, and the tolerance of the code is a guess; tests try a few quaternions.", "anchors": ["src/oresat_adcs/functions/quaternion.py:_quat2equatorial", "src/oresat_adcs/functions/vector.py:normalize"]}
{"id": "C221", "title": "a quaternion and its negative are tracked alike", "statement": "The attitudes q and -q are the same orientation, and tracking commands the same torque for either, and for either sign of the commanded quaternion. A satellite whose attitude determination changes the sign of the quaternion at any time still converges to the commanded attitude.", "quantifier": "all controllers, measurements, references, objects to be avoided and memories of the switch; all sequences of signs", "why_tests_cant": "The error quaternion enters the law by a vector, by a scalar, and through a switch with hysteresis that remembers earlier calls; a test that negates one quaternion far from or near the command passes, and the case that fails is a band of attitudes far from the command.", "anchors": ["src/oresat_adcs/classes/controller.py:ReactionWheelsController.tracking", "src/oresat_adcs/classes/controller.py:ReactionWheelsController.allowable_zone", "src/oresat_adcs/classes/controller.py:MayhewTrigger.step", "src/oresat_adcs/classes/controller.py:MayhewTrigger.sign", "src/oresat_adcs/functions/quaternion.py:error_quat"]}
{"id": "C222", "title": "the position filter is good enough to aim with", "statement": "When point_and_stare is given the position and velocity that DiscretePositionKalman has found from one GPS fix each second, the boresight it asks for is off the true target by at most the error of the filter over the distance, and the rate it asks for is off that of the line of sight in the same proportion. The error starts from that of the first guess and decreases by a factor 0.9975 in each second, to a floor given by the errors of the fixes and of the filter's model of the motion.", "quantifier": "all flights between 6500 and 10000 km from the centre, all fixes up to a bound on their errors, all first guesses within about 10 km, all numbers of seconds, all targets not behind the boresight, all attitudes", "why_tests_cant": "Errors of the fixes pass through the gains of the filter, which depend on everything before, and then through the geometry of the target; a test runs one pass with one noise.", "anchors": ["src/oresat_adcs/classes/observers.py:DiscretePositionKalman.propagate", "src/oresat_adcs/classes/observers.py:DiscretePositionKalman.update", "src/oresat_adcs/classes/observers.py:DiscretePositionKalman.output", "src/oresat_adcs/classes/controller.py:ReactionWheelsController.acquire_target", "src/oresat_adcs/classes/controller.py:ReactionWheelsController.point_and_stare"]}
{"id": "C223", "title": "signs that change keep the satellite from the command no longer than true signs", "statement": "When the attitude determination gives the quaternion with a sign of its own choice, another one after any time, a satellite under tracking settles on the commanded attitude within a time that depends only on the bound of the initial energy and on the tolerance, as it does when the signs are right.", "quantifier": "all controllers of the constructor with positive damping, all states at the start up to a bound on the energy, all sequences of signs of the attitude read and of the command, all memories of the switch, all durations", "why_tests_cant": "The signs that do harm have to be chosen anew at each passage of the attitude half a turn away, for ever; no test with random or constant signs shows it, and none can run for ever.", "anchors": ["src/oresat_adcs/classes/controller.py:ReactionWheelsController.tracking", "src/oresat_adcs/classes/controller.py:MayhewTrigger.step", "src/oresat_adcs/classes/controller.py:MayhewTrigger.sign", "src/oresat_adcs/functions/quaternion.py:error_quat", "src/oresat_adcs/classes/dynamics.py:Dynamics.vector_field"]}
{"id": "C224", "title": "Reset makes the flight software start again", "statement": "After Reset the FlightSoftware module of the simulation sends, for the same readings, the same wheel torques as a newly made one, whatever was called before.", "quantifier": "all gain matrices, inverses of the wheel matrix, time steps and wheel inertias, all sequences of UpdateState and Reset before, all sequences of readings after", "why_tests_cant": "What is left over of the past may show only under readings that come much later; tests start from new modules.", "anchors": ["simulation/FlightSoftwareModule.py:FlightSoftware.Reset", "simulation/FlightSoftwareModule.py:FlightSoftware.UpdateState", "simulation/FlightSoftwareModule.py:FlightSoftware.__init__", "simulation/FlightSoftwareModule.py:FlightSoftware.command_wheel_torques"]}
{"id": "C225", "title": "noise parameters that cannot be used are refused when the sensor is made", "statement": "A list of sensors that the constructors accepted, and that can be read without noise, can also be read with noise; a negative standard deviation is refused by the constructor.", "quantifier": "all standard deviations and means, all states, all draws, all sequences of steps of the gyro", "why_tests_cant": "The call that raises may come long after the constructor, only when noise is switched on, and tests use valid parameters; that the sign of arw_std_dev is never noticed is a statement about all histories.", "anchors": ["src/oresat_adcs/classes/sensor.py:Sensor.__init__", "src/oresat_adcs/classes/sensor.py:Sensor.generate_noise", "src/oresat_adcs/classes/sensor.py:StarTracker.generate_noise", "src/oresat_adcs/classes/sensor.py:Gyro.__init__", "src/oresat_adcs/classes/sensor.py:Gyro.propagate", "src/oresat_adcs/classes/dynamics.py:Dynamics.measurement"]}
