{
 "C12": "The stated round trip is false of the code (C12_round_trip_fails gives a witness); the partial theorem covers the attitudes for which it holds.",
 "C18": "The stated round trip is false of the code: angles go in as radians and come out as degrees (C18_round_trip_fails), and the two functions use different ellipsoids (C18_pole_height_error). C18_close_partial: with the angles converted the round trip is right within 5e-4 degrees and 21 m everywhere; C18_round_trip_partial: on the equator it is exact.",
 "C20": "The stated property is false: triad_algorithm never returns False (C20_never_false, C20_degenerate_not_reported). The partial theorem says degenerate input raises a non-finite value, not an attitude."
}