{
 "claims": [
  {
   "property": "C01",
   "status": "proved",
   "theorems": [
    "Adcs.C01_saturation",
    "Adcs.C01_saturation_empty"
   ],
   "note": ""
  },
  {
   "property": "C02",
   "status": "proved",
   "theorems": [
    "Adcs.C02_normalize",
    "Adcs.C02_normalize_zero",
    "Adcs.C02_normalize_idem",
    "Adcs.C02_normalize_smul",
    "Adcs.C02_pointing_vector"
   ],
   "note": ""
  },
  {
   "property": "C03",
   "status": "proved",
   "theorems": [
    "Adcs.C03_cross_mulVec",
    "Adcs.C03_npCross",
    "Adcs.C03_cross_skew",
    "Adcs.C03_xi"
   ],
   "note": ""
  },
  {
   "property": "C04",
   "status": "proved",
   "theorems": [
    "Adcs.C04_product_hamilton",
    "Adcs.C04_toH_bijective",
    "Adcs.C04_product_assoc",
    "Adcs.C04_product_one",
    "Adcs.C04_product_bilinear",
    "Adcs.C04_product_norm",
    "Adcs.C04_product_not_comm"
   ],
   "note": ""
  },
  {
   "property": "C05",
   "status": "proved",
   "theorems": [
    "Adcs.C05_conjugate_inverse",
    "Adcs.C05_conjugate_product"
   ],
   "note": ""
  },
  {
   "property": "C06",
   "status": "proved",
   "theorems": [
    "Adcs.C06_sandwich_rotation",
    "Adcs.C06_sandwich_preserves",
    "Adcs.C06_sandwich_neg",
    "Adcs.C06_sandwich_faithful"
   ],
   "note": ""
  },
  {
   "property": "C07",
   "status": "proved",
   "theorems": [
    "Adcs.C07_sandwich_opp"
   ],
   "note": ""
  },
  {
   "property": "C08",
   "status": "proved",
   "theorems": [
    "Adcs.C08_sandwich_product"
   ],
   "note": ""
  },
  {
   "property": "C09",
   "status": "proved",
   "theorems": [
    "Adcs.C09_error_quat",
    "Adcs.C09_error_quat_zero"
   ],
   "note": ""
  },
  {
   "property": "C10",
   "status": "proved",
   "theorems": [
    "Adcs.C10_axisangle_unit",
    "Adcs.C10_axisangle_active",
    "Adcs.C10_axisangle_passive"
   ],
   "note": ""
  },
  {
   "property": "C11",
   "status": "proved",
   "theorems": [
    "Adcs.C11_eulerangle_product",
    "Adcs.C11_eulerangle_dcm",
    "Adcs.C11_eulerangle_unit",
    "Adcs.C11_eulerangle_period"
   ],
   "note": ""
  },
  {
   "property": "C12",
   "status": "partial",
   "theorems": [
    "Adcs.C12_round_trip_fails",
    "Adcs.C12_round_trip_partial",
    "Adcs.C12_range",
    "Adcs.C12_unit_ok"
   ],
   "note": "The stated round trip is false of the code (C12_round_trip_fails gives a witness); the partial theorem covers the attitudes for which it holds."
  },
  {
   "property": "C13",
   "status": "proved",
   "theorems": [
    "Adcs.C13_path_lift",
    "Adcs.C13_path_lift_shift",
    "Adcs.C13_path_lift_fixed"
   ],
   "note": ""
  },
  {
   "property": "C14",
   "status": "proved",
   "theorems": [
    "Adcs.C14_ecef_rotation",
    "Adcs.C14_ecef_norm",
    "Adcs.C14_ecef_eastward"
   ],
   "note": ""
  },
  {
   "property": "C15",
   "status": "proved",
   "theorems": [
    "Adcs.C15_lvlh_rotation",
    "Adcs.C15_lvlh_axes"
   ],
   "note": ""
  },
  {
   "property": "C16",
   "status": "proved",
   "theorems": [
    "Adcs.C16_geodetic_on_ellipsoid",
    "Adcs.C16_geodetic_height"
   ],
   "note": ""
  },
  {
   "property": "C17",
   "status": "proved",
   "theorems": [
    "Adcs.C17_mirror",
    "Adcs.C17_rotation",
    "Adcs.C17_equator",
    "Adcs.C17_pole",
    "Adcs.C17_centre"
   ],
   "note": ""
  },
  {
   "property": "C18",
   "status": "partial",
   "theorems": [
    "Adcs.C18_round_trip_fails",
    "Adcs.C18_pole_height_error",
    "Adcs.C18_round_trip_partial",
    "Adcs.C18_close_partial"
   ],
   "note": "The stated round trip is false of the code: angles go in as radians and come out as degrees (C18_round_trip_fails), and the two functions use different ellipsoids (C18_pole_height_error). C18_close_partial: with the angles converted the round trip is right within 5e-4 degrees and 21 m everywhere; C18_round_trip_partial: on the equator it is exact."
  },
  {
   "property": "C19",
   "status": "proved",
   "theorems": [
    "Adcs.C19_triad",
    "Adcs.C19_triad_exact"
   ],
   "note": ""
  },
  {
   "property": "C20",
   "status": "partial",
   "theorems": [
    "Adcs.C20_never_false",
    "Adcs.C20_degenerate_not_reported",
    "Adcs.C20_degenerate_partial"
   ],
   "note": "The stated property is false: triad_algorithm never returns False (C20_never_false, C20_degenerate_not_reported). The partial theorem says degenerate input raises a non-finite value, not an attitude."
  },
  {
   "property": "C21",
   "status": "proved",
   "theorems": [
    "Adcs.C21_flae_unit",
    "Adcs.C21_flae_exact",
    "Adcs.C21_flae_fails_without_roll",
    "Adcs.C21_flae_optimal",
    "Adcs.C21_flae_matrix",
    "Adcs.C21_flae_eigenvector"
   ],
   "note": ""
  },
  {
   "property": "C22",
   "status": "proved",
   "theorems": [
    "Adcs.C22_leap_year",
    "Adcs.C22_days_in_month",
    "Adcs.C22_calendar"
   ],
   "note": ""
  },
  {
   "property": "C23",
   "status": "proved",
   "theorems": [
    "Adcs.C23_tick_valid",
    "Adcs.C23_init_valid"
   ],
   "note": ""
  },
  {
   "property": "C24",
   "status": "partial",
   "theorems": [
    "Adcs.C24_absolute",
    "Adcs.C24_instant_error",
    "Adcs.C24_stuck",
    "Adcs.C24_tracks_fails",
    "Adcs.C24_instant_inexact",
    "Adcs.C24_tracks_partial"
   ],
   "note": "The full statement is false of the code; its negation is proved. C24_tracks_fails: The full claim is false; a 7-second tick from 12:00:58 shows 12:00:65. C24_tracks_partial: C24 (partial): with a fixed tick that divides the minute (and is at least 10 microseconds) and a start on the grid, every reading is proper and exact, for any number of ticks. Missing: other tick lengths, for which the claim is false."
  },
  {
   "property": "C25",
   "status": "partial",
   "theorems": [
    "Adcs.C25_is_after_fails",
    "Adcs.C25_is_after_sound_partial",
    "Adcs.C25_same_minute_partial"
   ],
   "note": "The full statement is false of the code; its negation is proved. C25_is_after_fails: The full claim is false: at midnight on 1 February 2024, 31 January 2024 counts as still to come. C25_is_after_sound_partial: C25 (partial): `True` can be trusted: every field at or past the target implies the instant is. Missing: the converse, which is false. C25_same_minute_partial: C25 (partial): within one minute of the calendar the answer is exact both ways."
  },
  {
   "property": "C26",
   "status": "partial",
   "theorems": [
    "Adcs.C26_past_reported",
    "Adcs.C26_future_missed",
    "Adcs.C26_window_fails",
    "Adcs.C26_same_hour_sound_partial",
    "Adcs.C26_same_hour_exact_partial"
   ],
   "note": "The full statement is false of the code; its negation is proved. C26_window_fails: The full claim is false. C26_same_hour_sound_partial: C26 (partial): on the same calendar hour, with no borrow from the hour, `True` is right. Missing: other hours (false, `C26_past_reported`) and the converse (false, `C26_future_missed`). C26_same_hour_exact_partial: C26 (partial): for targets on a whole minute, in the same hour with no borrow, the window is exact."
  },
  {
   "property": "C27",
   "status": "proved",
   "theorems": [
    "Adcs.C27_julian_date",
    "Adcs.C27_outside_range",
    "Adcs.C27_jclock_julian_date",
    "Adcs.C27_classes_agree"
   ],
   "note": ""
  },
  {
   "property": "C28",
   "status": "proved",
   "theorems": [
    "Adcs.C28_tick",
    "Adcs.C28_tick_overflow",
    "Adcs.C28_tick_add",
    "Adcs.C28_ticks_error"
   ],
   "note": ""
  },
  {
   "property": "C29",
   "status": "proved",
   "theorems": [
    "Adcs.C29_is_after_order",
    "Adcs.C29_minutes_away",
    "Adcs.C29_is_minutes_away",
    "Adcs.C29_minutes_away_tick",
    "Adcs.C29_julian_date"
   ],
   "note": ""
  },
  {
   "property": "C30",
   "status": "partial",
   "theorems": [
    "Adcs.C30_jclock_absolute_frozen",
    "Adcs.C30_absolute_fails",
    "Adcs.C30_absolute_partial"
   ],
   "note": "The full statement is false of the code; its negation is proved. C30_absolute_fails: The full claim is false, because of `JClock`. C30_absolute_partial: C30 (partial): for `Clock` the counter is the total. Missing: `JClock`, for which it is false."
  },
  {
   "property": "C31",
   "status": "proved",
   "theorems": [
    "Adcs.C31_theta_range",
    "Adcs.C31_classes_agree"
   ],
   "note": ""
  },
  {
   "property": "C32",
   "status": "partial",
   "theorems": [
    "Adcs.C32_gmst_partial",
    "Adcs.C32_gmst_fails"
   ],
   "note": "The full statement is false of the code; its negation is proved. C32_gmst_fails: The full claim is false: the fraction of the second does not rotate the Earth, so half a second after midnight on 1 January 2000 the sidereal time has moved by under two milliseconds. C32_gmst_partial: C32 (partial): between two instants of one day that differ by a whole number of seconds the sidereal time advances in exact proportion. Missing: fractions of a second, for which it is false."
  },
  {
   "property": "C33",
   "status": "proved",
   "theorems": [
    "Adcs.C33_noise_free",
    "Adcs.C33_base",
    "Adcs.C33_noisy"
   ],
   "note": ""
  },
  {
   "property": "C34",
   "status": "proved",
   "theorems": [
    "Adcs.C34_vector_sensors"
   ],
   "note": ""
  },
  {
   "property": "C35",
   "status": "partial",
   "theorems": [
    "Adcs.C35_star_tracker_fails",
    "Adcs.C35_star_tracker_partial"
   ],
   "note": "The full statement is false of the code; its negation is proved. C35_star_tracker_fails: Noise is added to the vector part and the sum is not normalised: not a unit quaternion. C35_star_tracker_partial: What holds: without noise the reading is the unit attitude; with noise the scalar part is exact, the vector part is off by the noise `w`, and the reading is a unit quaternion only in the exceptional case `2 v\u00b7w + w\u00b7w = 0`. Missing: a normalisation."
  },
  {
   "property": "C36",
   "status": "proved",
   "theorems": [
    "Adcs.C36_random_walk",
    "Adcs.C36_reading",
    "Adcs.C36_bad_step"
   ],
   "note": ""
  },
  {
   "property": "C37",
   "status": "proved",
   "theorems": [
    "Adcs.C37_current",
    "Adcs.C37_rod_max_in_range",
    "Adcs.C37_rod_out_of_range",
    "Adcs.C37_unknown_type"
   ],
   "note": ""
  },
  {
   "property": "C38",
   "status": "partial",
   "theorems": [
    "Adcs.C38_distribute_fails",
    "Adcs.C38_over_limit",
    "Adcs.C38_distribute_partial",
    "Adcs.C38_reversed"
   ],
   "note": "The full statement is false of the code; its negation is proved. C38_distribute_fails: `C38` does not hold: a command of a hundredth of the maximum on the negative axis is answered with the full maximum in the opposite direction. C38_distribute_partial: `C38` for commands without a negative component."
  },
  {
   "property": "C39",
   "status": "proved",
   "theorems": [
    "Adcs.C39_allocation",
    "Adcs.C39_constructible"
   ],
   "note": ""
  },
  {
   "property": "C40",
   "status": "proved",
   "theorems": [
    "Adcs.C40_limited"
   ],
   "note": ""
  },
  {
   "property": "C41",
   "status": "proved",
   "theorems": [
    "Adcs.C41_null_motion"
   ],
   "note": ""
  },
  {
   "property": "C42",
   "status": "proved",
   "theorems": [
    "Adcs.C42_inertia",
    "Adcs.C42_products",
    "Adcs.C42_with_products"
   ],
   "note": ""
  },
  {
   "property": "C43",
   "status": "proved",
   "theorems": [
    "Adcs.C43_area",
    "Adcs.C43_positive",
    "Adcs.C43_face"
   ],
   "note": ""
  },
  {
   "property": "C44",
   "status": "partial",
   "theorems": [
    "Adcs.C44_torque_fails",
    "Adcs.C44_torque_partial",
    "Adcs.C44_orthogonal"
   ],
   "note": "The full statement is false of the code; its negation is proved. C44_torque_fails: The code multiplies the centroid by the projected area, which the force already contains, so the claim is false: here the torque of a 10 cm by 20 cm face is a factor 100 too small. C44_torque_partial: What does hold: the torque is the claimed one times the projected area (in square metres), for both kinds of force. Missing: the factor should be one."
  },
  {
   "property": "C45",
   "status": "proved",
   "theorems": [
    "Adcs.C45_away",
    "Adcs.C45_strict",
    "Adcs.C45_hidden",
    "Adcs.C45_formula"
   ],
   "note": ""
  },
  {
   "property": "C46",
   "status": "partial",
   "theorems": [
    "Adcs.C46_relative_velocity_fails",
    "Adcs.C46_corotating_point",
    "Adcs.C46_relative_velocity_partial",
    "Adcs.C46_orbital"
   ],
   "note": "The full statement is false of the code; its negation is proved. C46_relative_velocity_fails: The sign of the second component is wrong: an object at rest relative to the Earth on the x axis is given a relative velocity. C46_relative_velocity_partial: What holds: first and third components are right, the second is off by `2 \u03a9 x`; so the claim is true exactly on the plane `x = 0`. Missing: the sign in the second component."
  },
  {
   "property": "C47",
   "status": "partial",
   "theorems": [
    "Adcs.C47_shape",
    "Adcs.C47_top_band",
    "Adcs.C47_density_fails",
    "Adcs.C47_density_partial",
    "Adcs.C47_orbital"
   ],
   "note": "The full statement is false of the code; its negation is proved. C47_density_fails: So the full claim is false: at the base of the top band the density is less than half the table's. C47_density_partial: What holds: the shape, and the tabulated base density for the four lower bands. Missing: the base height of the fifth."
  },
  {
   "property": "C48",
   "status": "proved",
   "theorems": [
    "Adcs.C48_inverse_square",
    "Adcs.C48_orbital"
   ],
   "note": ""
  },
  {
   "property": "C49",
   "status": "partial",
   "theorems": [
    "Adcs.C49_not_conservative",
    "Adcs.C49_gradient_fails",
    "Adcs.C49_gradient_partial",
    "Adcs.C49_polar_axis"
   ],
   "note": "The full statement is false of the code; its negation is proved. C49_gradient_fails: In particular it is not the gradient of the zonal potential. C49_gradient_partial: What holds: the code's field is the gradient of the zonal potential plus an error along the projection of the position on the equatorial plane, of relative size `signError` (from the signs of the J3 and J4 terms in the first two components). In particular the third component is right everywhere and the J2 terms are right. Missing: the two signs."
  },
  {
   "property": "C50",
   "status": "proved",
   "theorems": [
    "Adcs.C50_rotating_dipole",
    "Adcs.C50_magnitude",
    "Adcs.C50_even_and_scaling",
    "Adcs.C50_corotates"
   ],
   "note": ""
  },
  {
   "property": "C51",
   "status": "proved",
   "theorems": [
    "Adcs.C51_sun"
   ],
   "note": ""
  },
  {
   "property": "C52",
   "status": "proved",
   "theorems": [
    "Adcs.C52_agree"
   ],
   "note": ""
  },
  {
   "property": "C53",
   "status": "partial",
   "theorems": [
    "Adcs.C53_member_fails",
    "Adcs.C53_member_partial",
    "Adcs.C53_only_seven_partial"
   ],
   "note": "The full statement is false of the code; its negation is proved. C53_member_fails: False for arbitrary arguments: from BBQ the number 7 is accepted and stored. C53_member_partial: C53 (partial): with members of `State` as arguments, after any history the current state is a member. Missing: other arguments. C53_only_seven_partial: C53 (partial): the only improper argument that is ever stored is the number 7, and only from BBQ."
  },
  {
   "property": "C54",
   "status": "partial",
   "theorems": [
    "Adcs.C54_table_fails",
    "Adcs.C54_bbq_point_reachable",
    "Adcs.C54_table_partial"
   ],
   "note": "The full statement is false of the code; its negation is proved. C54_table_fails: False: from BBQ a request for POINT is refused and fails the machine. C54_table_partial: C54 (partial): every other pair of states follows the table. Missing: BBQ to POINT."
  },
  {
   "property": "C55",
   "status": "proved",
   "theorems": [
    "Adcs.C55_sleep_via_spindown"
   ],
   "note": ""
  },
  {
   "property": "C56",
   "status": "partial",
   "theorems": [
    "Adcs.C56_active_states_raise",
    "Adcs.C56_no_mission_raises",
    "Adcs.C56_transition_fails",
    "Adcs.C56_transition_partial",
    "Adcs.C56_moves"
   ],
   "note": "The full statement is false of the code; its negation is proved. C56_transition_fails: The full claim is false. C56_transition_partial: C56 (partial): the other states complete (SAFE and POINT when a mission is set and the clock answers), and no automatic transition ever fails the machine: the move made is the one decided, and the state is unchanged when it raises. Missing: DETUMBLE, BBQ, UNSAFE and an unset mission."
  },
  {
   "property": "C57",
   "status": "proved",
   "theorems": [
    "Adcs.C57_linearizable",
    "Adcs.C57_reads",
    "Adcs.C57_mutex"
   ],
   "note": ""
  },
  {
   "property": "C58",
   "status": "partial",
   "theorems": [
    "Adcs.C58_threads_partial",
    "Adcs.C58_lock_fails",
    "Adcs.C58_array_locks",
    "Adcs.C58_lock_partial"
   ],
   "note": "The full statement is false of the code; its negation is proved. C58_lock_fails: False: after the number 7 has been stored the next call raises with the lock held, and every call after that blocks for ever. C58_threads_partial: `C58` for threads: when every call passes a member of `State`, the lock is never held by nobody: in every reachable configuration either the lock is free, or the thread that holds it can take its next step. C58_lock_partial: C58 (partial): with proper arguments the lock is free after every history. Missing: other arguments."
  },
  {
   "property": "C59",
   "status": "partial",
   "theorems": [
    "Adcs.C59_decision_fails",
    "Adcs.C59_ends_failed",
    "Adcs.C59_decision_partial",
    "Adcs.C59_checked_at_lock"
   ],
   "note": "The full statement is false of the code; its negation is proved. C59_decision_fails: `C59` does not hold: the control loop reads SAFE and decides to point; before it takes the lock another thread commands SPINDOWN. C59_decision_partial: What holds: if no call is in progress at the read and nobody takes the lock between the read and `change_state`, the decision is applied to the state it was computed from."
  },
  {
   "property": "C60",
   "status": "partial",
   "theorems": [
    "Adcs.C60_modes_partial",
    "Adcs.C60_stale_fails"
   ],
   "note": "The full statement is false of the code; its negation is proved. C60_stale_fails: Spin down, then go to SAFE; the wheels keep being accelerated. C60_modes_partial: Everything about the modes that are handled, whether or not the call raises an exception. Missing: in UNSAFE, SAFE and MANUAL the commands stay as they were (`C60_stale_fails`)."
  },
  {
   "property": "C61",
   "status": "proved",
   "theorems": [
    "Adcs.C61_command",
    "Adcs.C61_no_torque",
    "Adcs.C61_stops"
   ],
   "note": ""
  },
  {
   "property": "C62",
   "status": "partial",
   "theorems": [
    "Adcs.C62_never",
    "Adcs.C62_construct_fails",
    "Adcs.C62_controllers_partial"
   ],
   "note": "The full statement is false of the code; its negation is proved. C62_construct_fails: C62 fails. C62_controllers_partial: What remains of the constructor once there is a filter with a model: it succeeds exactly for a model with a clock, and then no actuator is commanded. Missing: no such filter can be made (`C62_never`)."
  },
  {
   "property": "C63",
   "status": "partial",
   "theorems": [
    "Adcs.C63_pm_one",
    "Adcs.C63_initial",
    "Adcs.C63_zero_width",
    "Adcs.C63_hysteresis",
    "Adcs.C63_wide_fails",
    "Adcs.C63_wide_partial"
   ],
   "note": "The full statement is false of the code; its negation is proved. C63_wide_fails: It is false: a half-width of exactly 1 and an input of -1. C63_wide_partial: What holds: it is constant for inputs strictly inside of the half-width, so for half-widths above 1. Missing: the half-width 1 itself with inputs +1 and -1."
  },
  {
   "property": "C64",
   "status": "proved",
   "theorems": [
    "Adcs.C64_travel",
    "Adcs.C64_changes"
   ],
   "note": ""
  },
  {
   "property": "C65",
   "status": "proved",
   "theorems": [
    "Adcs.C65_moment",
    "Adcs.C65_best",
    "Adcs.C65_no_field"
   ],
   "note": ""
  },
  {
   "property": "C66",
   "status": "partial",
   "theorems": [
    "Adcs.C66_momentum",
    "Adcs.C66_energy_fails",
    "Adcs.C66_energy_partial"
   ],
   "note": "The full statement is false of the code; its negation is proved. C66_energy_fails: It is false for a body with different moments of inertia. C66_energy_partial: What holds of it: the energy does not increase when the field is along a principal axis of the inertia, so for every field when the three moments are equal. Missing: other fields."
  },
  {
   "property": "C67",
   "status": "proved",
   "theorems": [
    "Adcs.C67_bbq",
    "Adcs.C67_aligned",
    "Adcs.C67_desaturate",
    "Adcs.C67_currents"
   ],
   "note": ""
  },
  {
   "property": "C68",
   "status": "partial",
   "theorems": [
    "Adcs.C68_acquire_fails",
    "Adcs.C68_acquire_partial",
    "Adcs.C68_shortest"
   ],
   "note": "The full statement is false of the code; its negation is proved. C68_acquire_fails: It is false: a target right behind the boresight gives the quaternion zero. C68_acquire_partial: For every target that is not right behind the boresight, the attitude turned by `acquire_target`'s rotation is a unit quaternion and the boresight points at the target. Missing: the target exactly behind."
  },
  {
   "property": "C69",
   "status": "proved",
   "theorems": [
    "Adcs.C69_acceleration",
    "Adcs.C69_energy",
    "Adcs.C69_switch",
    "Adcs.C69_gains",
    "Adcs.C69_definite",
    "Adcs.C69_run"
   ],
   "note": ""
  },
  {
   "property": "C70",
   "status": "partial",
   "theorems": [
    "Adcs.C70_constructor",
    "Adcs.C70_no_sun",
    "Adcs.C70_fails",
    "Adcs.C70_partial"
   ],
   "note": "The full statement is false of the code; its negation is proved. C70_fails: The constructor already raises, because the model has no clock of its own and no sun vector. C70_partial: What holds: with a clock and a sun vector supplied, and instruments with bounds for both objects, `tracking` returns a torque at every state. Missing: the library supplies neither."
  },
  {
   "property": "C71",
   "status": "proved",
   "theorems": [
    "Adcs.C71_defined",
    "Adcs.C71_errors",
    "Adcs.C71_plain",
    "Adcs.C71_tracking"
   ],
   "note": ""
  },
  {
   "property": "C72",
   "status": "proved",
   "theorems": [
    "Adcs.C72_orthogonal",
    "Adcs.C72_kinematics",
    "Adcs.C72_update",
    "Adcs.C72_integrate"
   ],
   "note": ""
  },
  {
   "property": "C73",
   "status": "proved",
   "theorems": [
    "Adcs.C73_momentum",
    "Adcs.C73_conserved",
    "Adcs.C73_power"
   ],
   "note": ""
  },
  {
   "property": "C74",
   "status": "proved",
   "theorems": [
    "Adcs.C74_wheels",
    "Adcs.C74_linear",
    "Adcs.C74_quadrature"
   ],
   "note": ""
  },
  {
   "property": "C75",
   "status": "proved",
   "theorems": [
    "Adcs.C75_steps",
    "Adcs.C75_whole",
    "Adcs.C75_tolerance",
    "Adcs.C75_terminates",
    "Adcs.C75_short_step",
    "Adcs.C75_bad_step",
    "Adcs.C75_compose",
    "Adcs.C75_compose_error",
    "Adcs.C75_clock",
    "Adcs.C75_time"
   ],
   "note": ""
  },
  {
   "property": "C76",
   "status": "partial",
   "theorems": [
    "Adcs.C76_step_fails",
    "Adcs.C76_step_partial"
   ],
   "note": "The full statement is false of the code; its negation is proved. C76_step_fails: It is false: the argument is replaced by 0.05, and asking for one step of 0.02 s does nothing. C76_step_partial: What holds: whatever step was given, `propagate` of `k` times 0.05 s advances the clock by `k` times 0.05 s and returns the noise-free measurement of the new state. Missing: the step given by the caller."
  },
  {
   "property": "C77",
   "status": "proved",
   "theorems": [
    "Adcs.C77_formula",
    "Adcs.C77_properties"
   ],
   "note": ""
  },
  {
   "property": "C78",
   "status": "proved",
   "theorems": [
    "Adcs.C78_formula",
    "Adcs.C78_dissipates"
   ],
   "note": ""
  },
  {
   "property": "C79",
   "status": "partial",
   "theorems": [
    "Adcs.C79_attitude_ignored",
    "Adcs.C79_attitude_fails",
    "Adcs.C79_attitude_partial"
   ],
   "note": "The full statement is false of the code; its negation is proved. C79_attitude_fails: The full claim is false, at every date. C79_attitude_partial: What holds: in shadow force and torque are zero, and the claim is true at the identity attitude, where force and torque are those of the walls lit from the sun's direction. Missing: the sun vector should be carried to the body frame first."
  },
  {
   "property": "C80",
   "status": "proved",
   "theorems": [
    "Adcs.C80_new",
    "Adcs.C80_no_clock",
    "Adcs.C80_constructible",
    "Adcs.C80_add",
    "Adcs.C80_array",
    "Adcs.C80_update",
    "Adcs.C80_attribute",
    "Adcs.C80_dynamic_state"
   ],
   "note": ""
  },
  {
   "property": "C81",
   "status": "proved",
   "theorems": [
    "Adcs.C81_measurement",
    "Adcs.C81_propagate",
    "Adcs.C81_history",
    "Adcs.C81_backwards"
   ],
   "note": ""
  },
  {
   "property": "C82",
   "status": "partial",
   "theorems": [
    "Adcs.C82_unit_fails",
    "Adcs.C82_length",
    "Adcs.C82_unit_partial",
    "Adcs.C82_lost"
   ],
   "note": "The full statement is false of the code; its negation is proved. C82_unit_fails: One propagation makes the estimate longer than 1. C82_unit_partial: After a measurement the estimate is a unit quaternion (whatever propagation did to its length), as long as no single propagation exceeded half a turn. Missing: the estimate is not a unit quaternion after a propagation (`C82_unit_fails`, `C82_length`)."
  },
  {
   "property": "C83",
   "status": "partial",
   "theorems": [
    "Adcs.C83_sign_fails",
    "Adcs.C83_own_partial"
   ],
   "note": "The full statement is false of the code; its negation is proved. C83_sign_fails: The readings `r` and `-r` turn the estimate in opposite directions. C83_own_partial: In every state reached by a history, a reading of the estimate itself, with either sign, leaves the bias unchanged and the estimate too, up to normalisation. Missing: for other readings the sign matters (`C83_sign_fails`)."
  },
  {
   "property": "C84",
   "status": "proved",
   "theorems": [
    "Adcs.C84_zero",
    "Adcs.C84_semigroup",
    "Adcs.C84_rotation",
    "Adcs.C84_rest"
   ],
   "note": ""
  },
  {
   "property": "C85",
   "status": "proved",
   "theorems": [
    "Adcs.C85_update",
    "Adcs.C85_propagate",
    "Adcs.C85_history"
   ],
   "note": ""
  },
  {
   "property": "C86",
   "status": "proved",
   "theorems": [
    "Adcs.C86_own",
    "Adcs.C86_written",
    "Adcs.C86_linear"
   ],
   "note": ""
  },
  {
   "property": "C87",
   "status": "partial",
   "theorems": [
    "Adcs.C87_jacobian_partial",
    "Adcs.C87_jacobian_fails"
   ],
   "note": "The full statement is false of the code; its negation is proved. C87_jacobian_fails: C87 fails at every non-zero position, for any non-zero mass. C87_jacobian_partial: The block is the Jacobian with the opposite sign. Missing: the sign (`C87_jacobian_fails`)."
  },
  {
   "property": "C88",
   "status": "partial",
   "theorems": [
    "Adcs.C88_total",
    "Adcs.C88_limit",
    "Adcs.C88_speed",
    "Adcs.C88_sign_partial",
    "Adcs.C88_sign_fails"
   ],
   "note": "The full statement is false of the code; its negation is proved. C88_sign_fails: C88 fails for a wheel that would be driven past the limit on the other side: it is sped up instead. C88_sign_partial: C88 holds for a wheel that is at rest or already turning the way it is asked to, and for one that the request would not take past the limit."
  },
  {
   "property": "C89",
   "status": "partial",
   "theorems": [
    "Adcs.C89_torque_partial",
    "Adcs.C89_short_way_fails"
   ],
   "note": "The full statement is false of the code; its negation is proved. C89_short_way_fails: With a proportional gain the negative of an error gives the opposite torque, which turns the satellite the long way round. C89_torque_partial: C89 holds for an error exactly if the gain ignores its vector part."
  },
  {
   "property": "C90",
   "status": "proved",
   "theorems": [
    "Adcs.C90_changes",
    "Adcs.C90_reacts",
    "Adcs.C90_gap",
    "Adcs.C90_variation"
   ],
   "note": ""
  },
  {
   "property": "C91",
   "status": "proved",
   "theorems": [
    "Adcs.C91_product",
    "Adcs.C91_library",
    "Adcs.C91_error"
   ],
   "note": ""
  },
  {
   "property": "C92",
   "status": "proved",
   "theorems": [
    "Adcs.C92_defined",
    "Adcs.C92_outside"
   ],
   "note": ""
  },
  {
   "property": "C93",
   "status": "partial",
   "theorems": [
    "Adcs.C93_products_fails",
    "Adcs.C93_products_partial",
    "Adcs.C93_exact_partial"
   ],
   "note": "The full statement is false of the code; its negation is proved. C93_products_fails: It is false: line 543 adds them when `reduced` is true. C93_products_partial: What holds: the flag makes no difference when the products are zero. Missing: the meaning of the flag, which is the opposite of the documented one (see also `C42_with_products`). C93_exact_partial: Exactly which satellites have the inertia that the claim says, for either value of the flag: those that are told that the model is reduced, and those without products."
  },
  {
   "property": "C94",
   "status": "partial",
   "theorems": [
    "Adcs.C94_reversed",
    "Adcs.C94_braking_fails",
    "Adcs.C94_braking_partial"
   ],
   "note": "The full statement is false of the code; its negation is proved. C94_braking_fails: The claim is false: a satellite turning about its first axis in a field along the third. C94_braking_partial: What holds of it: it brakes when no component of the moment asked for is negative. Missing: all other states, where it is reversed (`C94_reversed`)."
  },
  {
   "property": "C95",
   "status": "partial",
   "theorems": [
    "Adcs.C95_bang_bang",
    "Adcs.C95_rest_fails",
    "Adcs.C95_rest_partial"
   ],
   "note": "The full statement is false of the code; its negation is proved. C95_rest_fails: With bang-bang control and no error the trigger keeps its memory, so that the currents are not zero. C95_rest_partial: What holds: without bang-bang the currents are zero. Missing: bang-bang control."
  },
  {
   "property": "C96",
   "status": "partial",
   "theorems": [
    "Adcs.C96_frame_fails",
    "Adcs.C96_frame_partial"
   ],
   "note": "The full statement is false of the code; its negation is proved. C96_frame_fails: The direction of the earth is left in inertial coordinates. C96_frame_partial: What holds: the sun is in body coordinates, and the second object is the direction of the earth turned by the inverse attitude, so it is right only for attitudes that leave it fixed. Missing: all other attitudes."
  },
  {
   "property": "C97",
   "status": "partial",
   "theorems": [
    "Adcs.C97_line_of_sight",
    "Adcs.C97_rate_fails",
    "Adcs.C97_rate_partial"
   ],
   "note": "The full statement is false of the code; its negation is proved. C97_rate_fails: It is false: a camera along the first axis, a target along the second. C97_rate_partial: What holds: it is right once the boresight is on the target (no attitude error), and whenever the attitude error leaves the rate unchanged. Missing: all other attitudes."
  },
  {
   "property": "C98",
   "status": "partial",
   "theorems": [
    "Adcs.C98_frozen",
    "Adcs.C98_roll_fails",
    "Adcs.C98_roll_partial"
   ],
   "note": "The full statement is false of the code; its negation is proved. C98_roll_fails: `absolute` of a `JClock` never moves, so that after a tick of one second the reference is the same. C98_roll_partial: What holds: as a function of `absolute` the reference turns at the commanded rate `bbq`, which is also the rate handed to `tracking`, and it keeps the body's z axis on the pole of the ecliptic. Missing: the clock's `absolute` never moves."
  },
  {
   "property": "C99",
   "status": "proved",
   "theorems": [
    "Adcs.C99_compensation"
   ],
   "note": ""
  },
  {
   "property": "C100",
   "status": "proved",
   "theorems": [
    "Adcs.C100_unloads"
   ],
   "note": ""
  },
  {
   "property": "C101",
   "status": "proved",
   "theorems": [
    "Adcs.C101_gains"
   ],
   "note": ""
  },
  {
   "property": "C102",
   "status": "partial",
   "theorems": [
    "Adcs.C102_error",
    "Adcs.C102_constant_rate_partial",
    "Adcs.C102_moving_fails"
   ],
   "note": "The full statement is false of the code; its negation is proved. C102_moving_fails: The claim is false: at rest in a reference that starts to turn. C102_constant_rate_partial: What holds of the claim: references with constant rate. Missing: references with angular acceleration."
  },
  {
   "property": "C103",
   "status": "partial",
   "theorems": [
    "Adcs.C103_gradient_partial",
    "Adcs.C103_gradient_fails"
   ],
   "note": "The full statement is false of the code; its negation is proved. C103_gradient_fails: The claim is false: turning across the direction of the sun. C103_gradient_partial: What holds: the law is an attractive term along the attitude error plus a repulsive term; the potential changes by minus the work of the attractive term and minus twice the work of the repulsive term. Missing: the repulsive term is half of what the claim needs."
  },
  {
   "property": "C104",
   "status": "partial",
   "theorems": [
    "Adcs.C104_order_fails",
    "Adcs.C104_swapped_partial",
    "Adcs.C104_entries_partial"
   ],
   "note": "The full statement is false of the code; its negation is proved. C104_order_fails: The target is below the satellite, the instrument looks along the z axis. C104_swapped_partial: With boresight and target the other way round, the reference attitude is a unit quaternion that has the boresight on the target, if the target is not exactly behind the boresight. Missing: the documented order (`C104_order_fails`). C104_entries_partial: What the manager does with the entries of the mission data: the first is handed to the controller as boresight, the second as target, and the controller's answer is stored; with fewer than two entries POINT raises `IndexError`."
  },
  {
   "property": "C105",
   "status": "partial",
   "theorems": [
    "Adcs.C105_onset_partial",
    "Adcs.C105_onset_fails"
   ],
   "note": "The full statement is false of the code; its negation is proved. C105_onset_fails: The claim is false: the barrier does not start from zero. C105_onset_partial: What holds: the law depends continuously on the directions of any number of objects, at all directions away from the edges of the regions. Missing: the edge where avoidance sets in."
  },
  {
   "property": "C106",
   "status": "partial",
   "theorems": [
    "Adcs.C106_deviation_partial",
    "Adcs.C106_kinematics_fails",
    "Adcs.C106_first_order_partial"
   ],
   "note": "The full statement is false of the code; its negation is proved. C106_kinematics_fails: C106 fails for every estimate that is not the identity attitude, unless the step is a multiple of two full turns. C106_deviation_partial: Propagation is the exact solution plus `(1 - cos(|u| dt / 2))` times the vector part of the old estimate. Missing: that second term should not be there (`C106_kinematics_fails`). C106_first_order_partial: To first order in the step, propagation follows the kinematics `dq/dt = q \u2218 [0, w - b] / 2`."
  },
  {
   "property": "C107",
   "status": "partial",
   "theorems": [
    "Adcs.C107_gain_partial",
    "Adcs.C107_gain_fails"
   ],
   "note": "The full statement is false of the code; its negation is proved. C107_gain_fails: The first reading moves the estimate by a quarter of the error, not by half. C107_gain_partial: For covariance `p` in attitude without correlations, a reading that is a rotation by `\u03b8` about `e` away from the estimate turns the estimate about `e` by `2 arctan(p / (p + \u03c3\u00b2) / 2 * sin(\u03b8/2))`, which is `p / (p + \u03c3\u00b2) * \u03b8 / 2` to first order, and leaves the bias alone. Missing: the optimal correction is twice as large (`C107_gain_fails`)."
  },
  {
   "property": "C108",
   "status": "partial",
   "theorems": [
    "Adcs.C108_stale_partial",
    "Adcs.C108_lag_partial",
    "Adcs.C108_stale_fails"
   ],
   "note": "The full statement is false of the code; its negation is proved. C108_stale_fails: C108 fails. C108_stale_partial: `propagate` leaves the state object as it is, so that it still holds the estimate before the propagation. Missing: it is not brought up to date (`C108_stale_fails`). C108_lag_partial: After a measurement that raised no exception the state object holds what `output` returns, in its array and in its attributes; through any sequence of propagations it keeps holding the estimate made by that measurement. Missing: it does not follow the propagations (`C108_stale_fails`)."
  },
  {
   "property": "C109",
   "status": "partial",
   "theorems": [
    "Adcs.C109_drag_partial",
    "Adcs.C109_drag_fails"
   ],
   "note": "The full statement is false of the code; its negation is proved. C109_drag_fails: C109 fails for every filter. C109_drag_partial: For the covariance the equations of motion are `x' = v`, `v' = J x + b v`, for the estimate `x' = v`, `v' = -a x - b v`: the position rows agree. Missing: drag has opposite signs (`C109_drag_fails`)."
  },
  {
   "property": "C110",
   "status": "partial",
   "theorems": [
    "Adcs.C110_active_fails",
    "Adcs.C110_claim_fails",
    "Adcs.C110_passive_partial"
   ],
   "note": "The full statement is false of the code; its negation is proved. C110_active_fails: It fails in both active modes: DETUMBLE and POINT raise `TypeError` for every manager and all data, and leave the wheels' command as it was. C110_claim_fails: DETUMBLE with a well-formed mission raises `TypeError`. C110_passive_partial: The modes without control return; SLEEP and FAILED stop the actuators, all others (among them BBQ and SPINDOWN) keep the commands. Missing: the active modes."
  },
  {
   "property": "C111",
   "status": "partial",
   "theorems": [
    "Adcs.C111_steps_partial",
    "Adcs.C111_lost_fails",
    "Adcs.C111_endless"
   ],
   "note": "The full statement is false of the code; its negation is proved. C111_lost_fails: With steps of one second and calls of half a second, the filter is never propagated. C111_steps_partial: One call propagates the attitude filter by as many whole steps as fit into the duration and a millisecond, so by at most one millisecond too much and less than a step too little; the number of steps can be told from the filter. Missing: the remainder of each call is lost (`C111_lost_fails`)."
  },
  {
   "property": "C112",
   "status": "partial",
   "theorems": [
    "Adcs.C112_due_fails",
    "Adcs.C112_claim_fails",
    "Adcs.C112_attitude_partial",
    "Adcs.C112_first_call"
   ],
   "note": "The full statement is false of the code; its negation is proved. C112_due_fails: It never returns when a step of the position filter is due: `AttributeError` is raised after the first one, which stays done. C112_claim_fails: With a position step of one second, a call for one second does not return. C112_attitude_partial: While no step of the position filter is due, `propagate` returns, and changes nothing but the attitude filter. Missing: `C112_due_fails`."
  },
  {
   "property": "C113",
   "status": "proved",
   "theorems": [
    "Adcs.C113_speed",
    "Adcs.C113_stops"
   ],
   "note": ""
  },
  {
   "property": "C114",
   "status": "proved",
   "theorems": [
    "Adcs.C114_realises",
    "Adcs.C114_least"
   ],
   "note": ""
  },
  {
   "property": "C115",
   "status": "proved",
   "theorems": [
    "Adcs.C115_rotation",
    "Adcs.C115_angle",
    "Adcs.C115_error_angle",
    "Adcs.C115_axis"
   ],
   "note": ""
  },
  {
   "property": "C116",
   "status": "partial",
   "theorems": [
    "Adcs.C116_fixed_partial",
    "Adcs.C116_documented_fails",
    "Adcs.C116_refuses"
   ],
   "note": "The full statement is false of the code; its negation is proved. C116_documented_fails: C116 fails as documented: for the order `zyx` the first angle is the one about z, and the turns are about fixed axes. C116_fixed_partial: What happens is that the angles belong to the axes in the order of the string, and that the turns are made one after the other about fixed axes."
  },
  {
   "property": "C117",
   "status": "proved",
   "theorems": [
    "Adcs.C117_nadir"
   ],
   "note": ""
  },
  {
   "property": "C118",
   "status": "proved",
   "theorems": [
    "Adcs.C118_history",
    "Adcs.C118_switch"
   ],
   "note": ""
  },
  {
   "property": "C119",
   "status": "proved",
   "theorems": [
    "Adcs.C119_stable",
    "Adcs.C119_sampling"
   ],
   "note": ""
  },
  {
   "property": "C120",
   "status": "proved",
   "theorems": [
    "Adcs.C120_optimal"
   ],
   "note": ""
  },
  {
   "property": "C121",
   "status": "partial",
   "theorems": [
    "Adcs.C121_rate_partial",
    "Adcs.C121_design_fails"
   ],
   "note": "The full statement is false of the code; its negation is proved. C121_design_fails: For a turn through the identity the error has the opposite sign. C121_rate_partial: What it does is to change by minus half of the body rate, seen in the inertial frame."
  },
  {
   "property": "C122",
   "status": "proved",
   "theorems": [
    "Adcs.C122_integrators"
   ],
   "note": ""
  },
  {
   "property": "C123",
   "status": "partial",
   "theorems": [
    "Adcs.C123_away_partial",
    "Adcs.C123_towards_fails",
    "Adcs.C123_long_way_partial"
   ],
   "note": "The full statement is false of the code; its negation is proved. C123_towards_fails: A quarter turn from the target, at rest, the torque turns the satellite further away. C123_away_partial: At rest, and for every error of less than a full turn, the torque turns the satellite away from its target on the side on which it stands. C123_long_way_partial: A satellite that starts at rest, turned by `\u03c6 0` about y from its target, and that follows the torque, never has a scalar part of the error above the initial one: it does not come closer to its target on the side on which it stands, and can only reach it the long way round."
  },
  {
   "property": "C124",
   "status": "proved",
   "theorems": [
    "Adcs.C124_mean",
    "Adcs.C124_variance",
    "Adcs.C124_bound",
    "Adcs.C124_order"
   ],
   "note": ""
  },
  {
   "property": "C125",
   "status": "proved",
   "theorems": [
    "Adcs.C125_runs",
    "Adcs.C125_converges",
    "Adcs.C125_rate"
   ],
   "note": ""
  },
  {
   "property": "C126",
   "status": "proved",
   "theorems": [
    "Adcs.C126_bound",
    "Adcs.C126_bias"
   ],
   "note": ""
  },
  {
   "property": "C127",
   "status": "proved",
   "theorems": [
    "Adcs.C127_defined",
    "Adcs.C127_new",
    "Adcs.C127_update",
    "Adcs.C127_centre"
   ],
   "note": ""
  },
  {
   "property": "C128",
   "status": "proved",
   "theorems": [
    "Adcs.C128_value",
    "Adcs.C128_zero",
    "Adcs.C128_scale",
    "Adcs.C128_mono",
    "Adcs.C128_unknown"
   ],
   "note": ""
  },
  {
   "property": "C129",
   "status": "partial",
   "theorems": [
    "Adcs.C129_limit_fails",
    "Adcs.C129_limit_partial",
    "Adcs.C129_unbounded",
    "Adcs.C129_rod_reverses"
   ],
   "note": "The full statement is false of the code; its negation is proved. C129_limit_fails: The maximum current is not enforced. C129_limit_partial: What holds. A current within the maximum gives at most the maximum moment, if for the saturating rod the maximum current is on the rising side of its parabola."
  },
  {
   "property": "C130",
   "status": "proved",
   "theorems": [
    "Adcs.C130_sync",
    "Adcs.C130_drift",
    "Adcs.C130_set",
    "Adcs.C130_set_iff"
   ],
   "note": ""
  },
  {
   "property": "C131",
   "status": "partial",
   "theorems": [
    "Adcs.C131_order",
    "Adcs.C131_returns_fails",
    "Adcs.C131_returns_partial",
    "Adcs.C131_frozen"
   ],
   "note": "The full statement is false of the code; its negation is proved. C131_returns_fails: In SLEEP, a call for one second with a position step of one second raises `AttributeError`. C131_returns_partial: When no step of the position filter is due, `propagate` ends, and it ends with an estimate. Missing: `C131_returns_fails`."
  },
  {
   "property": "C132",
   "status": "partial",
   "theorems": [
    "Adcs.C132_rate_partial",
    "Adcs.C132_rate_fails"
   ],
   "note": "The full statement is false of the code; its negation is proved. C132_rate_fails: The bias is subtracted twice, by `output` and by the filter. C132_rate_partial: The estimate is turned by the rate less twice the bias; so the claim holds for a filter whose bias is zero. Missing: `C132_rate_fails`."
  },
  {
   "property": "C133",
   "status": "partial",
   "theorems": [
    "Adcs.C133_total",
    "Adcs.C133_own_partial",
    "Adcs.C133_double",
    "Adcs.C133_own_fails"
   ],
   "note": "The full statement is false of the code; its negation is proved. C133_own_fails: Of two simulators on one clock, the call of the first moves the clock of the second. C133_own_partial: It holds when no two simulators refer to the same clock. Missing: simulators that do (`C133_own_fails`)."
  },
  {
   "property": "C134",
   "status": "partial",
   "theorems": [
    "Adcs.C134_initial_partial",
    "Adcs.C134_initial_fails",
    "Adcs.C134_claim_fails"
   ],
   "note": "The full statement is false of the code; its negation is proved. C134_initial_fails: C134 fails, in every call that makes a step of at least a millisecond. C134_claim_fails: C134 fails. C134_initial_partial: Contents and attributes of the state object stay as they were, whether or not the call returns; its clock has advanced by the time that was simulated, so that the attributes are those of an earlier time. A state with another clock is left alone. Missing: the clock."
  },
  {
   "property": "C135",
   "status": "partial",
   "theorems": [
    "Adcs.C135_analytic_partial",
    "Adcs.C135_frozen",
    "Adcs.C135_euler",
    "Adcs.C135_order_fails",
    "Adcs.C135_linear_partial"
   ],
   "note": "The full statement is false of the code; its negation is proved. C135_order_fails: A force that grows with the time has no effect in the first step. C135_analytic_partial: For fields that need not be linear, if the field depends on the contents of the state only, in an analytic way, the error of every number of the state after one step is of fifth order. `y` is the exact motion from the same start. Missing: fields that depend on the time (`C135_order_fails`). C135_linear_partial: For a linear field that does not depend on the time, the error of every entry of the state after one step is of fifth order. `y` is the exact solution from the same start. Missing: fields that depend on the time (`C135_order_fails`); nonlinear ones are in `C135_analytic_partial`."
  },
  {
   "property": "C136",
   "status": "proved",
   "theorems": [
    "Adcs.C136_inverse",
    "Adcs.C136_exists",
    "Adcs.C136_accuracy"
   ],
   "note": ""
  },
  {
   "property": "C137",
   "status": "proved",
   "theorems": [
    "Adcs.C137_onset",
    "Adcs.C137_inclusion",
    "Adcs.C137_push",
    "Adcs.C137_one",
    "Adcs.C137_constructed"
   ],
   "note": ""
  },
  {
   "property": "C138",
   "status": "proved",
   "theorems": [
    "Adcs.C138_sampling",
    "Adcs.C138_unique",
    "Adcs.C138_stable"
   ],
   "note": ""
  },
  {
   "property": "C139",
   "status": "proved",
   "theorems": [
    "Adcs.C139_integrator",
    "Adcs.C139_plain"
   ],
   "note": ""
  },
  {
   "property": "C140",
   "status": "proved",
   "theorems": [
    "Adcs.C140_converges",
    "Adcs.C140_switches",
    "Adcs.C140_limit",
    "Adcs.C140_exists",
    "Adcs.C140_attracts"
   ],
   "note": ""
  },
  {
   "property": "C141",
   "status": "proved",
   "theorems": [
    "Adcs.C141_kepler",
    "Adcs.C141_bounded",
    "Adcs.C141_states",
    "Adcs.C141_axis",
    "Adcs.C141_circular",
    "Adcs.C141_exists"
   ],
   "note": ""
  },
  {
   "property": "C142",
   "status": "proved",
   "theorems": [
    "Adcs.C142_static"
   ],
   "note": ""
  },
  {
   "property": "C143",
   "status": "proved",
   "theorems": [
    "Adcs.C143_flae",
    "Adcs.C143_agree",
    "Adcs.C143_order",
    "Adcs.C143_scale"
   ],
   "note": ""
  },
  {
   "property": "C144",
   "status": "proved",
   "theorems": [
    "Adcs.C144_plane",
    "Adcs.C144_bounded",
    "Adcs.C144_diverges",
    "Adcs.C144_accuracy"
   ],
   "note": ""
  },
  {
   "property": "C145",
   "status": "partial",
   "theorems": [
    "Adcs.C145_pole",
    "Adcs.C145_sun",
    "Adcs.C145_aligned_fails",
    "Adcs.C145_aligned_partial"
   ],
   "note": "The full statement is false of the code; its negation is proved. C145_aligned_fails: It is false: a satellite at rest, with its `z` axis to the south pole of the ecliptic, is found aligned. `BBQ_transition` then goes on to the next mode. C145_aligned_partial: What holds: a satellite with a `check` below `e` and angular momentum `h` has its spin axis within `4 |hd|^2 - (2 |h| - e)^2` (a square of distance) of the wanted one, if `2 |h|` is at least `e`; and when `check` is zero, `h` is no larger than wanted, and is as large only in the wanted spin. Missing: slower satellites, which `check` does not distinguish from ones that spin as wanted."
  },
  {
   "property": "C146",
   "status": "partial",
   "theorems": [
    "Adcs.C146_roll_fails",
    "Adcs.C146_roll_partial",
    "Adcs.C146_run_partial",
    "Adcs.C146_commands"
   ],
   "note": "The full statement is false of the code; its negation is proved. C146_roll_fails: It is false for a body whose moments of inertia across the spin axis differ: the wobble carries momentum away from the axis while the magnetic field is along the error and no torque is possible. C146_roll_partial: What holds: for a body that is symmetric about its `z` axis the error never grows, at any time, in any field and from every state; it stands still only when the field is along the sum of the two errors, so when `check` is zero or no magnetic torque acts on it. Missing: other bodies. C146_run_partial: Over a whole motion, in a field that changes: the error does not grow, so `check` stays below twice the root of the error at the start."
  },
  {
   "property": "C147",
   "status": "proved",
   "theorems": [
    "Adcs.C147_reach",
    "Adcs.C147_four",
    "Adcs.C147_mission"
   ],
   "note": ""
  },
  {
   "property": "C148",
   "status": "partial",
   "theorems": [
    "Adcs.C148_stuck",
    "Adcs.C148_recovery_fails",
    "Adcs.C148_recovery_partial"
   ],
   "note": "The full statement is false of the code; its negation is proved. C148_recovery_fails: The claim is false. C148_recovery_partial: What holds of automatic transitions, for every history of sensor values: they never lead to FAILED, they keep the mission and the lock, and the only moves are SAFE to POINT to UNSAFE, and SPINDOWN to SLEEP. Missing: the recovery from UNSAFE by DETUMBLE and BBQ to SAFE."
  },
  {
   "property": "C149",
   "status": "proved",
   "theorems": [
    "Adcs.C149_distance",
    "Adcs.C149_invariant",
    "Adcs.C149_undo",
    "Adcs.C149_target",
    "Adcs.C149_hemi"
   ],
   "note": ""
  },
  {
   "property": "C150",
   "status": "proved",
   "theorems": [
    "Adcs.C150_axes",
    "Adcs.C150_decoupled",
    "Adcs.C150_positive"
   ],
   "note": ""
  },
  {
   "property": "C151",
   "status": "partial",
   "theorems": [
    "Adcs.C151_loop",
    "Adcs.C151_margin",
    "Adcs.C151_continuous",
    "Adcs.C151_sampled_partial",
    "Adcs.C151_sampled_fails"
   ],
   "note": "The full statement is false of the code; its negation is proved. C151_sampled_fails: The claim fails for the gain of the satellite with the sampling time of the simulation: a large enough multiple of it makes the sampled loop unstable. C151_sampled_partial: The exact limit of the multiples: with `c` times the gain the sampled design model is stable if and only if `c * T * Kw_i / J_i` is below 2 for every axis. The reported infinite gain margin is true only of the continuous model (`C151_continuous`)."
  },
  {
   "property": "C152",
   "status": "partial",
   "theorems": [
    "Adcs.C152_handlers_partial",
    "Adcs.C152_unsafe",
    "Adcs.C152_bbq",
    "Adcs.C152_handlers_fails"
   ],
   "note": "The full statement is false of the code; its negation is proved. C152_handlers_fails: The claim is false. C152_handlers_partial: For every state but UNSAFE the method called on a member decides as wanted, and `change_state` accepts the answer, except that of BBQ when the mission has started. In UNSAFE the method answers POINT when the mission has started. Missing: UNSAFE otherwise (`C152_unsafe`), and the acceptance of POINT in BBQ (`C152_bbq`)."
  },
  {
   "property": "C153",
   "status": "proved",
   "theorems": [
    "Adcs.C153_convergence",
    "Adcs.C153_gravity",
    "Adcs.C153_exists",
    "Adcs.C153_completes",
    "Adcs.C153_gravity_completes"
   ],
   "note": ""
  },
  {
   "property": "C154",
   "status": "proved",
   "theorems": [
    "Adcs.C154_sensor",
    "Adcs.C154_suite"
   ],
   "note": ""
  },
  {
   "property": "C155",
   "status": "partial",
   "theorems": [
    "Adcs.C155_bias",
    "Adcs.C155_statistics_partial",
    "Adcs.C155_steps_fails"
   ],
   "note": "The full statement is false of the code; its negation is proved. C155_steps_fails: With a mean of the drift other than zero the number of steps matters: the mean bias after one step of four seconds is `2 * rrw_mean`, after four steps of one second `4 * rrw_mean`. C155_statistics_partial: With `rrw_mean = 0` the statistics are those of white rate noise plus a bias driven by white noise, whatever the division of the elapsed time `T` into steps: the bias is normal with mean zero and variance `init_bias\u00b2 + rrw\u00b2 T`, the error of the integrated readings is normal with mean zero and variance `init_bias\u00b2 T\u00b2 + arw\u00b2 T + rrw\u00b2 T\u00b3 / 3`, their covariance is `init_bias\u00b2 T + rrw\u00b2 T\u00b2 / 2`, and different axes are uncorrelated. Missing: a mean of the drift other than zero (`C155_steps_fails`)."
  },
  {
   "property": "C156",
   "status": "partial",
   "theorems": [
    "Adcs.C156_ignored_partial",
    "Adcs.C156_mean_fails"
   ],
   "note": "The full statement is false of the code; its negation is proved. C156_mean_fails: A gyro made with `arw_mean = 1` reads the true rate on average. C156_ignored_partial: The mean given to the constructor has no effect: two gyros that differ in it only go through the same histories. Missing: any effect of it (`C156_mean_fails`); the other sensors have the mean they were given (`C154_sensor`)."
  },
  {
   "property": "C157",
   "status": "partial",
   "theorems": [
    "Adcs.C157_honest_partial",
    "Adcs.C157_optimal",
    "Adcs.C157_receiver",
    "Adcs.C157_example_fails"
   ],
   "note": "The full statement is false of the code; its negation is proved. C157_example_fails: The receiver of the library's examples has standard deviations 30 m and 2 m/s; with it the error of the filter is larger than the filter reports. C157_honest_partial: If the covariance of the filter is that of its error, and the receiver's standard deviations are 10.0598 m and 0.52038 m/s, then after any number of readings with uncorrelated noise it still is: the error has mean zero, and the covariance the filter reports. Missing: receivers with other standard deviations (`C157_example_fails`)."
  },
  {
   "property": "C158",
   "status": "partial",
   "theorems": [
    "Adcs.C158_torque",
    "Adcs.C158_kinematics",
    "Adcs.C158_upright_partial",
    "Adcs.C158_trace_partial",
    "Adcs.C158_quarter_partial",
    "Adcs.C158_half_partial",
    "Adcs.C158_shipped_partial",
    "Adcs.C158_settles_fails",
    "Adcs.C158_round_partial",
    "Adcs.C158_turned_partial"
   ],
   "note": "The full statement is false of the code; its negation is proved. C158_settles_fails: For the moments of inertia of the satellite and the first target of the simulation. C158_upright_partial: C158 holds where the body axes of the target are the inertial axes, for every inertia: with the quaternion of the attitude that has a negative scalar part, small errors die out. Missing: other targets. C158_trace_partial: For every inertia and every gain, if the trace of `(kq R)\u207b\u00b9 kw` is below three quarters of the sampling time (`R` has the body axes of the target as columns), small errors grow; and with the other quaternion of the attitude, if it is above minus this. So they always grow with at least one of the two quaternions. C158_quarter_partial: About a target turned by a quarter turn about the body axis `y`, small errors grow for every satellite with principal moments of inertia `d'`, every gain of `get_gain_matrix` for principal moments of inertia `d` (the wheels make a difference), and both quaternions of the attitude. C158_half_partial: About a target turned by half a turn about the body axis `y`, the same. C158_shipped_partial: About both targets of the simulation (90 and 180 degrees), small errors grow: for every satellite with principal moments of inertia, every gain of `get_gain_matrix`, every sampling time and both quaternions. C158_round_partial: C158, the exact criterion for a satellite that is the same about all axes: small errors about the target die out exactly if the cosine `C` of the angle between body axes and inertial axes is large enough for the gains. C158_turned_partial: With the same moment of inertia about all axes, small errors grow about every target that is turned by a right angle or more from the inertial axes, whatever the gain, the sampling time and the axis."
  },
  {
   "property": "C159",
   "status": "proved",
   "theorems": [
    "Adcs.C159_sources",
    "Adcs.C159_currents"
   ],
   "note": ""
  },
  {
   "property": "C160",
   "status": "partial",
   "theorems": [
    "Adcs.C160_leaves",
    "Adcs.C160_settles",
    "Adcs.C160_runs",
    "Adcs.C160_shipped_partial",
    "Adcs.C160_steady_fails",
    "Adcs.C160_upright_partial"
   ],
   "note": "The full statement is false of the code; its negation is proved. C160_steady_fails: For the moments of inertia of the satellite and its wheels, and the first target of the simulation. C160_shipped_partial: Near both targets of the simulation the true loop is repelled by the target: for every satellite with principal moments of inertia, every gain of `get_gain_matrix`, every sampling time, every wheel inertia, and both quaternions. C160_upright_partial: C160 holds where the body axes of the target are the inertial axes: with the quaternion of the attitude that has a negative scalar part, the true loop stays near the target and goes there, if the damping is small enough for the moments of inertia that the wheels leave. Missing: other targets."
  },
  {
   "property": "C161",
   "status": "proved",
   "theorems": [
    "Adcs.C161_transition"
   ],
   "note": ""
  },
  {
   "property": "C162",
   "status": "partial",
   "theorems": [
    "Adcs.C162_noise_partial",
    "Adcs.C162_noise_fails"
   ],
   "note": "The full statement is false of the code; its negation is proved. C162_noise_fails: The covariance of angle and drift has the wrong sign. C162_noise_partial: C162, what holds: the variances of the bias agree, those of the angles agree up to the constant `0.3333333` for a third, and the covariance of the two has the opposite sign in its drift term: the predicted one is larger by `driftVar * T\u00b2`. Missing: `C162_noise_fails`."
  },
  {
   "property": "C163",
   "status": "partial",
   "theorems": [
    "Adcs.C163_steps_partial",
    "Adcs.C163_steps_fails"
   ],
   "note": "The full statement is false of the code; its negation is proved. C163_steps_fails: Two steps of one second predict another covariance of angle and bias than one of two seconds. C163_steps_partial: C163, what holds: after `n` steps of length `dt`, `T = n dt`, the predicted covariance is the exact one plus errors that depend on the length of the steps: the variance of the angles is too small by `driftVar * dt * T * (T - dt)`, apart from the constant `0.3333333`, and the covariance of angle and bias too large by `driftVar * dt * T`; both vanish as the steps become short. Missing: `C163_steps_fails`."
  },
  {
   "property": "C164",
   "status": "partial",
   "theorems": [
    "Adcs.C164_settles_partial",
    "Adcs.C164_blind",
    "Adcs.C164_steady_fails"
   ],
   "note": "The full statement is false of the code; its negation is proved. C164_steady_fails: C164 fails for a satellite that turns once per second and is seen once per second. C164_settles_partial: C164, what holds: unless the satellite turns by whole turns between the readings (no rotation at all is fine), the covariance of the filter approaches one positive definite limit, whatever it was at first and whatever is read. Missing: whole turns (`C164_blind`)."
  },
  {
   "property": "C165",
   "status": "partial",
   "theorems": [
    "Adcs.C165_returns_partial",
    "Adcs.C165_command",
    "Adcs.C165_before",
    "Adcs.C165_history",
    "Adcs.C165_returns_fails",
    "Adcs.C165_print_fails"
   ],
   "note": "The full statement is false of the code; its negation is proved. C165_returns_fails: A new module that is called before the star tracker has written anything. C165_print_fails: C165 fails also with all messages: a start in the future with `output_states` switched on. C165_returns_partial: C165, what holds: a call returns exactly if the star tracker has been heard, the gyro has been heard or is not needed (before the start of the controller, off the target), and after the start the wheels have been heard; before the start it must not be asked to print. Otherwise it raises `UnboundLocalError`. Missing: `C165_returns_fails`."
  },
  {
   "property": "C166",
   "status": "partial",
   "theorems": [
    "Adcs.C166_rest_partial",
    "Adcs.C166_converges_fails",
    "Adcs.C166_turning_fails"
   ],
   "note": "The full statement is false of the code; its negation is proved. C166_converges_fails: C166 fails for a satellite that makes half a turn between the readings: the filter starts from the truth and does not stay there. C166_turning_fails: C166 for every satellite that turns, unless the angle between two readings is a multiple of a full turn: exact readings never lead the filter to the attitude and the bias, wherever it starts. The predicted attitude is not the one the satellite has turned to (C106), so a filter that is right now is wrong at the next reading. C166_rest_partial: C166, what holds: the filter of a satellite at rest finds the attitude and the bias, and its covariance settles. Missing: a satellite that turns (`C166_converges_fails`, `C166_turning_fails`)."
  },
  {
   "property": "C167",
   "status": "partial",
   "theorems": [
    "Adcs.C167_zero",
    "Adcs.C167_unit",
    "Adcs.C167_sim",
    "Adcs.C167_error_angle",
    "Adcs.C167_axis",
    "Adcs.C167_norm_partial",
    "Adcs.C167_assertion_fails"
   ],
   "note": "The full statement is false of the code; its negation is proved. C167_assertion_fails: The claim is false. C167_norm_partial: What the computed norm is, up to nine roundings."
  },
  {
   "property": "C168",
   "status": "partial",
   "theorems": [
    "Adcs.C168_unchanged",
    "Adcs.C168_limit_partial",
    "Adcs.C168_limit_fails"
   ],
   "note": "The full statement is false of the code; its negation is proved. C168_limit_fails: The claim is false. C168_limit_partial: C168 (partial): the limit is kept up to the next float, that is up to a factor `1 + 2 ^ -52`, and each component is the one of exact arithmetic up to `3 / 2 ^ 53` of its size."
  },
  {
   "property": "C169",
   "status": "partial",
   "theorems": [
    "Adcs.C169_valid",
    "Adcs.C169_tracks_partial",
    "Adcs.C169_absolute_partial",
    "Adcs.C169_absolute_fails"
   ],
   "note": "The full statement is false of the code; its negation is proved. C169_absolute_fails: The claim is false: seven ticks of 0.45 seconds make 3.1500000000000004. C169_tracks_partial: C169 (partial): with a step of `60 / k` seconds for a whole `k` up to 5.9 million, rounded to a float, and a start on the grid up to rounding, the clock shows the right time within 0.1 microseconds after any number of ticks: rounding errors neither pile up nor make it miss a minute. C169_absolute_partial: C169 (partial): `absolute` is the total up to one rounding per tick."
  },
  {
   "property": "C170",
   "status": "partial",
   "theorems": [
    "Adcs.C170_monotone",
    "Adcs.C170_error",
    "Adcs.C170_strict_partial",
    "Adcs.C170_strict_fails"
   ],
   "note": "The full statement is false of the code; its negation is proved. C170_strict_fails: The claim is false. C170_strict_partial: C170 (partial): clocks at least 43 microseconds apart have different dates."
  },
  {
   "property": "C171",
   "status": "partial",
   "theorems": [
    "Adcs.C171_zero",
    "Adcs.C171_norm_partial",
    "Adcs.C171_accept_fails"
   ],
   "note": "The full statement is false of the code; its negation is proved. C171_accept_fails: The claim is false: 90 degrees about x, then 135 degrees about z, is refused. C171_norm_partial: What the function computes for any angles is a unit quaternion up to rounding, and the norm that the assertion compares with 1 is off by at most `9 / 2 ^ 53`. Missing for the claim: an exact 1."
  },
  {
   "property": "C172",
   "status": "partial",
   "theorems": [
    "Adcs.C172_steps_partial",
    "Adcs.C172_simulator_partial",
    "Adcs.C172_never_ends",
    "Adcs.C172_short",
    "Adcs.C172_steps_fails"
   ],
   "note": "The full statement is false of the code; its negation is proved. C172_steps_fails: The claim is false. C172_steps_partial: C172 (partial): with a step of at least 2 milliseconds and a duration of `k` steps give or take half a millisecond, `integrate` makes exactly `k` updates as long as `(k + 1) ^ 2 * dt` stays below `0.0002 * 2 ^ 53`. C172_simulator_partial: C172 (partial), for the step 0.05 s that the simulator always uses: right for six million steps, 83 hours."
  },
  {
   "property": "C173",
   "status": "proved",
   "theorems": [
    "Adcs.C173_timedelta",
    "Adcs.C173_no_drift",
    "Adcs.C173_integrate"
   ],
   "note": ""
  },
  {
   "property": "C174",
   "status": "partial",
   "theorems": [
    "Adcs.C174_near_partial",
    "Adcs.C174_returns",
    "Adcs.C174_half_turn",
    "Adcs.C174_near_fails",
    "Adcs.C174_best_exists",
    "Adcs.C174_noise"
   ],
   "note": "The full statement is false of the code; its negation is proved. C174_near_fails: Two sensors that are off by 0.2 rad in opposite directions, about the reference attitude. The answer is half a turn off. C174_near_partial: C174, what holds: whatever `flae` returns is near the best attitude `u`, to `5e-9 / d ^ 2` divided by the last component of `u`. Missing: attitudes without a last component, like the identity (`C174_near_fails`)."
  },
  {
   "property": "C175",
   "status": "partial",
   "theorems": [
    "Adcs.C175_half_turn",
    "Adcs.C175_scale_fails",
    "Adcs.C175_scale_partial"
   ],
   "note": "The full statement is false of the code; its negation is proved. C175_scale_fails: Doubling both weights turns the answer by half a turn. C175_scale_partial: C175, what holds: with exact observations and weights that add up to slightly less than one, `flae` returns the attitude, up to the error of `C174_near_partial`. Missing: other sums (`C175_scale_fails`)."
  },
  {
   "property": "C176",
   "status": "proved",
   "theorems": [
    "Adcs.C176_side",
    "Adcs.C176_share"
   ],
   "note": ""
  },
  {
   "property": "C177",
   "status": "proved",
   "theorems": [
    "Adcs.C177_eclipse",
    "Adcs.C177_arc"
   ],
   "note": ""
  },
  {
   "property": "C178",
   "status": "proved",
   "theorems": [
    "Adcs.C178_smallest",
    "Adcs.C178_largest",
    "Adcs.C178_middle"
   ],
   "note": ""
  },
  {
   "property": "C179",
   "status": "partial",
   "theorems": [
    "Adcs.C179_along",
    "Adcs.C179_fixed_partial",
    "Adcs.C179_turning_partial",
    "Adcs.C179_detumble_fails"
   ],
   "note": "The full statement is false of the code; its negation is proved. C179_detumble_fails: A satellite that turns about the direction of the field keeps turning. C179_fixed_partial: What holds of it in a field of fixed direction: the angular momentum across the field dies out exponentially, that along the field stays for ever. Missing: that the latter disappears, which is false. C179_turning_partial: And in a field that turns steadily all angular momentum dies out exponentially, whatever the moments of inertia and the rates."
  },
  {
   "property": "C180",
   "status": "partial",
   "theorems": [
    "Adcs.C180_still",
    "Adcs.C180_fixed_partial",
    "Adcs.C180_turning_partial",
    "Adcs.C180_speeds_partial",
    "Adcs.C180_speeds_fails"
   ],
   "note": "The full statement is false of the code; its negation is proved. C180_speeds_fails: Wheels on a pyramid that run against each other are left as they are. C180_fixed_partial: In a field of fixed direction the excess momentum along it stays in the wheels, that across it dies out. Missing of the claim: the part along the field, and (with more than three wheels) the null motion. C180_turning_partial: In a turning field the excess momentum dies out exponentially. Missing of the claim: the null motion. C180_speeds_partial: So that wheels without a null motion come to the speeds asked for. Missing of the claim: wheels with one."
  },
  {
   "property": "C181",
   "status": "proved",
   "theorems": [
    "Adcs.C181_libration",
    "Adcs.C181_sideways"
   ],
   "note": ""
  },
  {
   "property": "C182",
   "status": "partial",
   "theorems": [
    "Adcs.C182_law",
    "Adcs.C182_sun_partial",
    "Adcs.C182_margin",
    "Adcs.C182_keeps_out_fails"
   ],
   "note": "The full statement is false of the code; its negation is proved. C182_keeps_out_fails: The claim fails: the earth, on the -x axis, is behind the boresight x at the start. The controller takes the earth to stay where it is while the satellite turns; half a turn later the boresight points at the earth. C182_sun_partial: What holds, for the commands of `tracking` and the library's dynamics: an instrument keeps out of its forbidden region about the sun. Missing: the earth, which the controller looks for in the wrong direction (see C96)."
  },
  {
   "property": "C183",
   "status": "partial",
   "theorems": [
    "Adcs.C183_stuck",
    "Adcs.C183_reaches_fails",
    "Adcs.C183_rest_partial"
   ],
   "note": "The full statement is false of the code; its negation is proved. C183_reaches_fails: The claim fails. C183_rest_partial: Where the satellite can rest, for one instrument: at the command, or where the axis of the direct turn to the command is at right angles to boresight and sun and the turn starts by reducing the margin (a positive multiple of boresight x sun for a bound to keep within, a negative one for a bound to keep outside). Missing: that every other motion comes to the command."
  },
  {
   "property": "C184",
   "status": "partial",
   "theorems": [
    "Adcs.C184_speed_partial",
    "Adcs.C184_satellite_partial",
    "Adcs.C184_limit_fails"
   ],
   "note": "The full statement is false of the code; its negation is proved. C184_limit_fails: C184 fails for the gain of the satellite: two wheels turn at the greatest speed against each other, and the other two also; a small error of the attitude makes the flight software slow down one pair. That turns the satellite, and the wheels of the other pair, on which the check leaves no torque, are then too fast. C184_speed_partial: Over any run without total angular momentum, at the samples and in between, no wheel passes its greatest speed by more than what the recoil of the satellite can add in one interval, `c * maxTorque * T`, where `c` bounds how strongly the torques of the wheels turn the satellite about the axes of the wheels. For any gain, target, mounting of the star tracker, inertia and arrangement of wheels. C184_satellite_partial: C184 for the satellite: with four wheels arranged as on the satellite, in every run of the simulation the speeds stay within the limit and what the recoil of the satellite adds in one interval."
  },
  {
   "property": "C185",
   "status": "partial",
   "theorems": [
    "Adcs.C185_neg_zero_partial",
    "Adcs.C185_refines_partial",
    "Adcs.C185_desaturate_partial",
    "Adcs.C185_detumble_partial",
    "Adcs.C185_fails"
   ],
   "note": "The full statement is false of the code; its negation is proved. C185_fails: **C185** does not hold: a field of three components, not all of one sign. C185_neg_zero_partial: No component of a moment with a negative zero leaves the scaling as a number. C185_refines_partial: Without rounding and without negative zeros, `Str.distribute` is what the floats compute: the same numbers, and where it stops with `nonFinite` a current is nan. C185_desaturate_partial: **C185** (the part that holds). Wheels at their reference: no current in a field whose components all have the same sign; in every other field each torquer is commanded nan. C185_detumble_partial: **C185** (the part that holds). No rotation: the same of `detumble`, for a matrix of inertia with a positive diagonal."
  },
  {
   "property": "C186",
   "status": "partial",
   "theorems": [
    "Adcs.C186_partial",
    "Adcs.C186_ten_partial",
    "Adcs.C186_fails"
   ],
   "note": "The full statement is false of the code; its negation is proved. C186_fails: **C186** does not hold: both at the same rate. C186_partial: **C186** (the part that holds). There is a curve exactly if the dynamics ran ten times as often as the flight software (apart from the first run), otherwise drawing raises; and the point number `k` shows update number `k / 10`. C186_ten_partial: **C186** (the part that holds). With a flight software that is ten times slower than the dynamics (as in the program) the curve is drawn if the stop time is less than one period of the dynamics after a run of the flight software, and then it is right."
  },
  {
   "property": "C187",
   "status": "partial",
   "theorems": [
    "Adcs.C187_any_partial",
    "Adcs.C187_pyramid_partial",
    "Adcs.C187_third",
    "Adcs.C187_fails",
    "Adcs.C187_envelope_partial"
   ],
   "note": "The full statement is false of the code; its negation is proved. C187_fails: **C187** does not hold. C187_any_partial: **C187** (the part that holds). Of a torque that `n` wheels in any arrangement can produce, at least the part `1 / \u221an` is produced, in the right direction. C187_pyramid_partial: **C187** (the part that holds). On the pyramid at least two thirds of a torque that the wheels can produce are produced, in the right direction. C187_envelope_partial: **C187** (the part that holds). Exactly which torques the pyramid delivers in full: `u` and `v` are the components along the azimuths of the wheels."
  },
  {
   "property": "C188",
   "status": "proved",
   "theorems": [
    "Adcs.C188_start",
    "Adcs.C188_bound",
    "Adcs.C188_turn",
    "Adcs.C188_overshoot",
    "Adcs.C188_motion"
   ],
   "note": ""
  },
  {
   "property": "C189",
   "status": "proved",
   "theorems": [
    "Adcs.C189_unique",
    "Adcs.C189_forever",
    "Adcs.C189_closed",
    "Adcs.C189_states"
   ],
   "note": ""
  },
  {
   "property": "C190",
   "status": "partial",
   "theorems": [
    "Adcs.C190_energy_fails",
    "Adcs.C190_rate_partial",
    "Adcs.C190_drift_partial",
    "Adcs.C190_mirror_partial"
   ],
   "note": "The full statement is false of the code; its negation is proved. C190_energy_fails: A satellite over the equator that moves upwards loses or gains energy. C190_rate_partial: C190 (partial): the power that the wrong signs add is at most a ten-thousandth of the weight times the speed. C190_drift_partial: C190 (partial): so in a time `T`, with a speed of at most `V`, the energy changes by at most a ten-thousandth of `g V T`, where `g` is the gravity on the ground. C190_mirror_partial: C190 (partial): the change of the energy is undone where the motion is its own mirror image. A satellite that crosses a plane through the Earth's axis at right angles has, any time after this, the energy that it had the same time before."
  },
  {
   "property": "C191",
   "status": "proved",
   "theorems": [
    "Adcs.C191_west",
    "Adcs.C191_rate",
    "Adcs.C191_mean"
   ],
   "note": ""
  },
  {
   "property": "C192",
   "status": "proved",
   "theorems": [
    "Adcs.C192_unique",
    "Adcs.C192_exists",
    "Adcs.C192_forever",
    "Adcs.C192_simulated",
    "Adcs.C192_reversible"
   ],
   "note": ""
  },
  {
   "property": "C193",
   "status": "partial",
   "theorems": [
    "Adcs.C193_full_torque_partial",
    "Adcs.C193_within_limit_partial",
    "Adcs.C193_unknown_speed_partial",
    "Adcs.C193_overspeed_partial",
    "Adcs.C193_fails",
    "Adcs.C193_refines_partial",
    "Adcs.C193_zero_speeds_partial",
    "Adcs.C193_zero_refines_partial"
   ],
   "note": "The full statement is false of the code; its negation is proved. C193_fails: **C193** does not hold: a satellite at rest with wheels at rest, and a star tracker that reports zeros. C193_full_torque_partial: **C193** (what happens instead). A reading that is no attitude, or a gyro reading with nan, makes every wheel get the greatest torque in its negative direction, whatever the attitude, the rate and the speeds of the wheels are. C193_within_limit_partial: **C193** (the part that holds). Whatever the messages contain, nan and infinities included, every wheel gets a number within the limit of the torque. C193_unknown_speed_partial: **C193** (what happens instead). A wheel whose speed is reported as nan gets the torque asked for, within the limit of the torque: the limit of the speed is not looked at. C193_overspeed_partial: **C193** (what happens instead). As long as the readings are no measurements every wheel is accelerated steadily, past every speed: the limit of the speed, which is computed from the torque asked for, does not stop it. C193_refines_partial: **C193** (the two models). For readings that are numbers, not all zero, and without rounding, what the floats compute is what `Fsw.updateState` computes. C193_zero_speeds_partial: **C193** (the same for `zero_wheel_speeds`). Whatever speeds are reported, every wheel gets a number within the limit of the torque; but a wheel whose speed is reported as nan gets the greatest torque in its negative direction, also if it stands. C193_zero_refines_partial: **C193** (the two models of `zero_wheel_speeds`). For speeds that are numbers, and without rounding, what the floats compute is what `Fsw.zeroWheelSpeeds` computes."
  },
  {
   "property": "C194",
   "status": "partial",
   "theorems": [
    "Adcs.C194_modulated_partial",
    "Adcs.C194_calls_partial",
    "Adcs.C194_bang_bang_partial",
    "Adcs.C194_no_limit_partial",
    "Adcs.C194_stuck_partial",
    "Adcs.C194_fails"
   ],
   "note": "The full statement is false of the code; its negation is proved. C194_fails: **C194** does not hold: three coils, triggers as they are made (memory 1, half-width 0.3), and a magnetometer that reports zeros. C194_modulated_partial: **C194** (the part that holds). A controller that is not bang-bang sends nan to all three torquers when a reading it uses is no measurement. C194_calls_partial: What `detumble` and `desaturate` send is what `actuator_commands` makes of the torques above. C194_bang_bang_partial: **C194** (what happens instead). A bang-bang controller goes on with the greatest moments in the directions it remembers, and remembers the same directions afterwards. C194_no_limit_partial: **C194** (what happens instead). A moment whose first component is nan is not scaled: the other torquers get the currents of their components, however far these are beyond the greatest moments. C194_stuck_partial: **C194** (what happens instead). For as long as the readings are no measurements, a bang-bang controller repeats one command."
  },
  {
   "property": "C195",
   "status": "partial",
   "theorems": [
    "Adcs.C195_one_reading_partial",
    "Adcs.C195_forever_partial",
    "Adcs.C195_zeros_partial",
    "Adcs.C195_refines_partial",
    "Adcs.C195_fails"
   ],
   "note": "The full statement is false of the code; its negation is proved. C195_fails C195_one_reading_partial: **C195** (what happens instead). One reading of the star tracker with nan in it makes the estimates of attitude and bias nan; one reading of the gyro makes the attitude nan. C195_forever_partial: **C195** (what happens instead). An attitude of nan stays nan through every later sequence of calls, whatever the readings are; with the first measurement that is made the bias is nan too, and it stays nan. C195_zeros_partial: **C195** (a reading of zeros). The filter takes a quaternion of zeros for a measurement that agrees with its estimate: attitude (of unit norm) and bias stay, and the covariance shrinks as with a true measurement. C195_refines_partial: **C195** (the two models). For readings that are numbers and without rounding, what the floats compute is what `Att.Kalman.measurement` and `Att.Kalman.propagate` compute."
  },
  {
   "property": "C196",
   "status": "partial",
   "theorems": [
    "Adcs.C196_clock",
    "Adcs.C196_jclock_partial",
    "Adcs.C196_whole_partial",
    "Adcs.C196_bound_partial",
    "Adcs.C196_fails"
   ],
   "note": "The full statement is false of the code; its negation is proved. C196_fails: C196 does not hold for the class in use: half a second past a whole one the angle is that of half a second earlier. C196_jclock_partial: C196, what holds: the angle is the almanac's less the fraction of the second, at a full turn in 86400 s. C196_whole_partial: C196, what holds: on whole seconds, where the tests look, the angle is the almanac's. C196_bound_partial: C196, what holds: at every instant the angle is the almanac's up to 7.3e-5 rad, the turn of one second: 0.47 km on the equator."
  },
  {
   "property": "C197",
   "status": "proved",
   "theorems": [
    "Adcs.C197_detumble",
    "Adcs.C197_detumbles",
    "Adcs.C197_alone",
    "Adcs.C197_librating"
   ],
   "note": ""
  },
  {
   "property": "C198",
   "status": "partial",
   "theorems": [
    "Adcs.C198_phase",
    "Adcs.C198_overstated",
    "Adcs.C198_fails",
    "Adcs.C198_safe_partial"
   ],
   "note": "The full statement is false of the code; its negation is proved. C198_fails: The claim fails, for the moments of the satellite and the sampling time of the simulation. C198_safe_partial: What holds: multiples of the gain up to 0.63 of the gain margins reported for a delay of half of the sampling time keep the sampled loop stable."
  },
  {
   "property": "C199",
   "status": "partial",
   "theorems": [
    "Adcs.C199_zero",
    "Adcs.C199_grows",
    "Adcs.C199_estimate_partial",
    "Adcs.C199_fails"
   ],
   "note": "The full statement is false of the code; its negation is proved. C199_fails: C199 fails. C199_estimate_partial: Partial: what the filter predicts, unlike how certain it says it is of it, settles as the calls are made shorter: none fails, the angular momentum tends to a multiple of what it was that depends on the time ahead alone, and the energy stays within a factor of 1.0003 of it. Missing: the covariance (`C199_grows`)."
  },
  {
   "property": "C200",
   "status": "partial",
   "theorems": [
    "Adcs.C200_exists",
    "Adcs.C200_limit_partial",
    "Adcs.C200_converges_partial",
    "Adcs.C200_from_rest_partial",
    "Adcs.C200_cone",
    "Adcs.C200_double",
    "Adcs.C200_fails"
   ],
   "note": "The full statement is false of the code; its negation is proved. C200_fails: The claim is false: a field that turns about the pole of the ecliptic, twice in an orbit of 95 minutes. C200_limit_partial: C200, what holds for every start: the error tends to zero or to that of the upside-down rest, unless the field turns about the pole of the ecliptic or its rate is that of a resonance. C200_converges_partial: C200, what holds: outside of the two resonances, from every start whose error is at most that of rest, other than upside down at rest itself, the satellite comes into the wanted spin. Missing: fields that turn about the pole of the ecliptic, the rate of the second resonance, and bodies that are not symmetric. C200_from_rest_partial: So from rest, as `detumble` leaves the satellite, in every attitude other than upside down."
  },
  {
   "property": "C201",
   "status": "partial",
   "theorems": [
    "Adcs.C201_slow_partial",
    "Adcs.C201_fast_partial",
    "Adcs.C201_step",
    "Adcs.C201_exists",
    "Adcs.C201_stalls",
    "Adcs.C201_faster",
    "Adcs.C201_fails"
   ],
   "note": "The full statement is false of the code; its negation is proved. C201_fails: **C201** does not hold: samples once a second, a spin of one turn per second. C201_slow_partial: What holds: a satellite whose rate times the period is less than two radians at the start (`\u03c1 < 1`) loses in each period at least the part `k h (1 - \u03c1)` of the momentum across the field. Here `lam` is a lower bound of the moments of inertia, so that the rate is at most the momentum over `lam`. Missing: faster satellites and slower samples. C201_fast_partial: Whatever the satellite and the momentum it starts with, samples that follow each other fast enough detumble it: the momentum across the field dies out, that along the field stays."
  },
  {
   "property": "C202",
   "status": "partial",
   "theorems": [
    "Adcs.C202_refines",
    "Adcs.C202_reached",
    "Adcs.C202_bias",
    "Adcs.C202_quaternion_partial",
    "Adcs.C202_fails"
   ],
   "note": "The full statement is false of the code; its negation is proved. C202_fails: **C202** does not hold: the bias that was returned changes with the next measurement. C202_quaternion_partial: What holds: the quaternion that `output` returned keeps its numbers whatever the program does afterwards; the bias does until the filter takes its next measurement. Missing: biases afterwards."
  },
  {
   "property": "C203",
   "status": "partial",
   "theorems": [
    "Adcs.C203_after_partial",
    "Adcs.C203_moved",
    "Adcs.C203_fails"
   ],
   "note": "The full statement is false of the code; its negation is proved. C203_fails: **C203** does not hold. C203_after_partial: What holds: once the simulator has taken a step, nothing that is done with the filter changes the satellite. Missing: before that."
  },
  {
   "property": "C204",
   "status": "partial",
   "theorems": [
    "Adcs.C204_short_partial",
    "Adcs.C204_exists",
    "Adcs.C204_stall",
    "Adcs.C204_too_far",
    "Adcs.C204_fails",
    "Adcs.C204_limit_partial"
   ],
   "note": "The full statement is false of the code; its negation is proved. C204_fails C204_short_partial: With samples often enough, for the errors up to `V` and the momenta up to `B` at the beginning: the errors fall off exponentially, at a rate and with a factor that do not depend on the interval. C204_limit_partial: For controllers made by the constructor: however large the error and the momentum at the beginning, with samples often enough the satellite comes to rest in the commanded attitude, up to the sign of its quaternion."
  },
  {
   "property": "C205",
   "status": "proved",
   "theorems": [
    "Adcs.C205_exists",
    "Adcs.C205_takes_time",
    "Adcs.C205_bounded",
    "Adcs.C205_slows",
    "Adcs.C205_near",
    "Adcs.C205_region"
   ],
   "note": ""
  },
  {
   "property": "C206",
   "status": "partial",
   "theorems": [
    "Adcs.C206_builds_partial",
    "Adcs.C206_torque_partial",
    "Adcs.C206_points_partial",
    "Adcs.C206_manager_partial",
    "Adcs.C206_template",
    "Adcs.C206_current",
    "Adcs.C206_fails",
    "Adcs.C206_current_fails"
   ],
   "note": "The full statement is false of the code; its negation is proved. C206_fails: **C206** does not hold. C206_current_fails: The second part does not hold either. C206_builds_partial: **C206** (the part that holds). The function of the examples gives a satellite: its inertia is diagonal, although products of inertia are given (C93), and is what the numbers say for the body and the four wheels. C206_torque_partial: **C206** (the part that holds). The wheels produce every torque up to `0.0005 \u221a(12/7)` (0.65 mN m) exactly, and of every greater size there is one that they do not. C206_points_partial: **C206** (the part that holds). A controller with the damping of the manager and a natural frequency up to 0.06 brings the satellite from rest to any commanded attitude, whatever its attitude was, if the wheels hold no more than 0.5 mN m s: the error falls exponentially, with at most three switches of the sign. (With `obj_avoidance` on, a run is one without objects in the way, as in C140.) C206_manager_partial: **C206** (the part that holds). With the gains of the manager (0.707, 0.1) the same is known of states whose error is less: from rest, attitudes up to 102 degrees from the command (`npNorm (q - qc) ^ 2 < 0.75`)."
  },
  {
   "property": "C207",
   "status": "proved",
   "theorems": [
    "Adcs.C207_turn",
    "Adcs.C207_exists",
    "Adcs.C207_rest",
    "Adcs.C207_examples"
   ],
   "note": ""
  },
  {
   "property": "C208",
   "status": "proved",
   "theorems": [
    "Adcs.C208_tracks"
   ],
   "note": ""
  },
  {
   "property": "C209",
   "status": "partial",
   "theorems": [
    "Adcs.C209_pushed",
    "Adcs.C209_circular",
    "Adcs.C209_near_partial",
    "Adcs.C209_bias_fails"
   ],
   "note": "The full statement is false of the code; its negation is proved. C209_bias_fails: The full claim fails, on an orbit 500 km up. C209_near_partial: C209, with what is missing of the full claim: only on orbits within half a kilometre of 6778.5 km radius."
  },
  {
   "property": "C210",
   "status": "proved",
   "theorems": [
    "Adcs.C210_converges",
    "Adcs.C210_bounded",
    "Adcs.C210_uniform",
    "Adcs.C210_exists"
   ],
   "note": ""
  },
  {
   "property": "C211",
   "status": "proved",
   "theorems": [
    "Adcs.C211_converges",
    "Adcs.C211_exists",
    "Adcs.C211_floor"
   ],
   "note": ""
  },
  {
   "property": "C212",
   "status": "proved",
   "theorems": [
    "Adcs.C212_converges",
    "Adcs.C212_disturbed",
    "Adcs.C212_exists"
   ],
   "note": ""
  },
  {
   "property": "C213",
   "status": "proved",
   "theorems": [
    "Adcs.C213_bound",
    "Adcs.C213_field",
    "Adcs.C213_example",
    "Adcs.C213_hold"
   ],
   "note": ""
  },
  {
   "property": "C214",
   "status": "proved",
   "theorems": [
    "Adcs.C214_converges",
    "Adcs.C214_exists"
   ],
   "note": ""
  },
  {
   "property": "C215",
   "status": "partial",
   "theorems": [
    "Adcs.C215_one_fix_partial",
    "Adcs.C215_forever_partial",
    "Adcs.C215_refines_partial",
    "Adcs.C215_fails"
   ],
   "note": "The full statement is false of the code; its negation is proved. C215_fails C215_one_fix_partial: **C215** (what happens instead). One fix with nan or an infinity in one component makes all six components of the estimate nan or infinite, unless the inverse raises and nothing changes. C215_forever_partial: **C215** (what happens instead). Such an estimate never becomes a number again, whatever fixes and steps follow. C215_refines_partial: **C215** (the two models). For fixes that are numbers and without rounding, what the floats compute is what `Pos.Kalman.update` and `Pos.Kalman.propagate` compute, the latter for a position that is not the origin."
  },
  {
   "property": "C216",
   "status": "proved",
   "theorems": [
    "Adcs.C216_bound",
    "Adcs.C216_sharp",
    "Adcs.C216_second"
   ],
   "note": ""
  },
  {
   "property": "C217",
   "status": "partial",
   "theorems": [
    "Adcs.C217_converges_partial",
    "Adcs.C217_turns_round_partial",
    "Adcs.C217_sight",
    "Adcs.C217_never",
    "Adcs.C217_limit_partial",
    "Adcs.C217_fails"
   ],
   "note": "The full statement is false of the code; its negation is proved. C217_fails: It is false: a target right behind the boresight stays there. C217_converges_partial: From every state whose energy is below that of the target right behind the boresight, with the trigger at `1`, a line of sight that turns slowly and a torque that is not too large, the boresight comes to the target, and the body turns with the line of sight, up to errors in proportion to the acceleration of the line of sight and to the torque. The constants depend on the gains and on the energy only. Missing: a trigger left at `-1` by earlier tracking and a target behind (`C217_never`), and the target right behind the boresight (`C217_fails`). C217_turns_round_partial: The trigger at `-1` is turned round by the first call if the target is not too far behind. C217_limit_partial: **C217** (the limit, partial). Under the conditions of the claim and with less energy at the start than at rest with the target behind, the boresight comes to the target and the rate to zero. Missing: the starts with more energy."
  },
  {
   "property": "C218",
   "status": "proved",
   "theorems": [
    "Adcs.C218_aim",
    "Adcs.C218_sharp",
    "Adcs.C218_rate"
   ],
   "note": ""
  },
  {
   "property": "C219",
   "status": "proved",
   "theorems": [
    "Adcs.C219_vanish",
    "Adcs.C219_exists"
   ],
   "note": ""
  },
  {
   "property": "C220",
   "status": "partial",
   "theorems": [
    "Adcs.C220_accepts",
    "Adcs.C220_range_partial",
    "Adcs.C220_turn",
    "Adcs.C220_fails",
    "Adcs.C220_tolerance"
   ],
   "note": "The full statement is false of the code; its negation is proved. C220_fails C220_range_partial: C220, what holds: right ascension and roll are from 0 to 360 degrees and the declination from -90 to 90, for every quaternion. Missing: that right ascension and roll are less than 360."
  },
  {
   "property": "C221",
   "status": "partial",
   "theorems": [
    "Adcs.C221_law_partial",
    "Adcs.C221_reversed",
    "Adcs.C221_fails",
    "Adcs.C221_refines_partial",
    "Adcs.C221_converges_partial"
   ],
   "note": "The full statement is false of the code; its negation is proved. C221_fails: The claim fails: 147 degrees from the command the attitude feedback of a new controller changes sign with the sign of the quaternion read. C221_law_partial: Outside the hysteresis the law is the same for either sign of the attitude read and of the attitude commanded and for either memory, with or without objects to be avoided, and the controller then remembers the sign of the error. C221_refines_partial: Motions with arbitrary signs: whatever sign the attitude read has at each instant, and whatever the controller then remembers, a motion that starts with little enough energy never reaches the hysteresis, and is a motion of the loop that is given the true attitude and never switches its sign. C221_converges_partial: So they converge to the commanded attitude as if the signs were right: rate and distance from the command (as a quaternion, the nearer of `qc` and `-qc`) fall off exponentially, with a rate that depends on the gains and the hysteresis."
  },
  {
   "property": "C222",
   "status": "proved",
   "theorems": [
    "Adcs.C222_aim"
   ],
   "note": ""
  },
  {
   "property": "C223",
   "status": "partial",
   "theorems": [
    "Adcs.C223_away",
    "Adcs.C223_fails",
    "Adcs.C223_refines_partial",
    "Adcs.C223_settles_partial",
    "Adcs.C223_exists"
   ],
   "note": "The full statement is false of the code; its negation is proved. C223_fails: So the claim is false. C223_refines_partial: Runs that start with little enough energy never reach the hysteresis, whatever the signs and the memory: they are runs of the loop that is given the true attitude and never switches. C223_settles_partial: So from there the satellite settles as C140 says, in a time that does not depend on the signs. What is missing to the claim is the start with more energy, for which it is false."
  },
  {
   "property": "C224",
   "status": "partial",
   "theorems": [
    "Adcs.C224_memory_partial",
    "Adcs.C224_reset_partial",
    "Adcs.C224_fresh_partial",
    "Adcs.C224_reset_fails"
   ],
   "note": "The full statement is false of the code; its negation is proved. C224_reset_fails: A satellite that has been at rest in the first target attitude; after `Reset` it is sent on to the second target, while a new module lets it rest. C224_memory_partial: All that a module remembers is its target. Two modules with the same settings and the same target answer every sequence of calls alike, return for return and message for message, whatever they did before: the torques, the sign, the mode, the errors and the messages of earlier calls make no difference. C224_reset_partial: C224, what holds: after any calls, with `Reset` among them or not, the module sends what a new one sends that is given the target of that moment. Missing: `Reset` does not bring the target back (`C224_reset_fails`). C224_fresh_partial: C224, what holds: as long as the satellite has not been at rest in the first target attitude, the claim is true: after `Reset`, and without it, the module sends what a new one sends."
  },
  {
   "property": "C225",
   "status": "partial",
   "theorems": [
    "Adcs.C225_noise_free_partial",
    "Adcs.C225_noisy_partial",
    "Adcs.C225_gyro_partial",
    "Adcs.C225_arw_partial",
    "Adcs.C225_sensor_made_fails"
   ],
   "note": "The full statement is false of the code; its negation is proved. C225_sensor_made_fails: Refuted: a magnetometer with standard deviation -1 is made, and reads without noise, and raises with noise. C225_noise_free_partial: Without noise the parameters do not matter: the reading is the one of the unchecked model. C225_noisy_partial: With noise, where the true values exist: `ValueError` if any of the six standard deviations is negative, otherwise the reading of C33. C225_gyro_partial: The gyro: the constructor refuses a negative `init_bias` and nothing else; a negative `rrw_std_dev` raises at the first `propagate`, whatever the step. C225_arw_partial: A negative `arw_std_dev` is never noticed: after any steps both gyros raise the same or read the same."
  }
 ]
}