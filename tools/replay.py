#!/usr/bin/env python3
"""Compares the equations of the Lean model with a recorded run of the library.

data/true_states.csv of the repository has 98 states of a simulated run, 0.5 s apart, without commands. The satellite
is that of the examples with mass (21.66*4 + 2419.56)/1000, drag coefficient 2 and products of inertia, the time starts
on 2020-09-01 0:00 (found by fitting the sun and the field). This script evaluates the definitions of
Model/{Vector,Quaternion,Frame,JDay,Environment,Structure,Dynamics}.lean with floats, ten RK4 steps per row, and prints
the largest differences. Nothing of the library is run.
"""
import csv
import math

ROWS = [[float(x) for x in r] for r in list(csv.reader(open('/repo/data/true_states.csv')))[1:]]

# Model/Environment.lean
J2, J3, J4 = 1.08262668355e-3, -2.53265648533e-6, -1.61962159137e-6
MU = 6.6743e-11 * 5.9733328e24
RE = 6.378137e6
AU = 1.496e11
OMEGA = 7.2921158553e-5
DIPOLE = [6.3712e6 ** 3 * 1e-9 * g for g in (-1450.9, 4652.5, -29404.8)]


def dot(a, b):
    return sum(x * y for x, y in zip(a, b))


def cross(a, b):
    return [a[1] * b[2] - a[2] * b[1], a[2] * b[0] - a[0] * b[2], a[0] * b[1] - a[1] * b[0]]


def add(a, b):
    return [x + y for x, y in zip(a, b)]


def scale(k, a):
    return [k * x for x in a]


def mul(m, v):
    return [dot(r, v) for r in m]


# Model/Quaternion.lean
def product(a, b):
    c = cross(a[1:], b[1:])
    return [a[0] * b[0] - dot(a[1:], b[1:])] + [a[0] * b[i + 1] + b[0] * a[i + 1] + c[i] for i in range(3)]


def conjugate(q):
    return [q[0], -q[1], -q[2], -q[3]]


def sandwich(q, v):
    return product(conjugate(q), product([0] + list(v), q))[1:]


def sandwich_opp(q, v):
    return sandwich(conjugate(q), v)


# Model/JDay.lean: `days` from 2000-01-01 12:00 to midnight, `sec` seconds of the day, fractions as in Clock
def theta_gmst(days, sec):
    t = days / 36525
    gmst = 24110.54841 + 8640184.812866 * t + 0.093104 * t ** 2 - 6.2e-6 * t ** 3 + 1.002737909350795 * sec
    return math.radians(gmst % 86400 / 240)


# Model/Frame.lean
WGS_A = 6378137.0
WGS_E2 = 6.6943799901377997e-3


def to_ecef(theta, x):
    c, s = math.cos(theta), math.sin(theta)
    return [c * x[0] + s * x[1], -s * x[0] + c * x[1], x[2]]


def to_inertial(theta, x):
    return to_ecef(-theta, x)


def height(e):
    """The geodetic height, by iteration; ecef_to_lla agrees to a few micrometres at these heights (C136)."""
    w, z = math.hypot(e[0], e[1]), e[2]
    lat = math.atan2(z, w * (1 - WGS_E2))
    for _ in range(8):
        n = WGS_A / math.sqrt(1 - WGS_E2 * math.sin(lat) ** 2)
        lat = math.atan2(z + WGS_E2 * n * math.sin(lat), w)
    return w * math.cos(lat) + z * math.sin(lat) - WGS_A * math.sqrt(1 - WGS_E2 * math.sin(lat) ** 2)


def gravity(x):
    r = math.sqrt(dot(x, x))
    a = [c / r for c in x]
    z, z2 = a[2], a[2] ** 2
    z3, z4, q = z * z2, z2 ** 2, RE / r
    a2 = scale(1.5 * J2 * q ** 2, [(1 - 5 * z2) * a[0], (1 - 5 * z2) * a[1], (3 - 5 * z2) * z])
    p3 = 5 * (7 * z3 - 3 * z)
    a3 = scale(0.5 * J3 * q ** 3, [p3 * a[0], p3 * a[1], 3 * (10 * z2 - 35 / 3 * z4 - 1)])
    p4 = 3 - 42 * z2 + 63 * z4
    a4 = scale(0.625 * J4 * q ** 4, [p4 * a[0], p4 * a[1], -(15 - 70 * z2 + 63 * z4) * z])
    return scale(-MU / r ** 2, add(add(a, a2), add(a3, a4)))


def sun(t):
    long = (280.46 + 36000.771 * t) % 360
    anom = math.radians((357.5277233 + 35999.05034 * t) % 360)
    ecl = math.radians(long + 1.914666471 * math.sin(anom) + 0.019994643 * math.sin(2 * anom))
    obl = math.radians(23.439291 - 0.0130042 * t)
    return [math.cos(ecl), math.cos(obl) * math.sin(ecl), math.sin(obl) * math.sin(ecl)]


def sun_from(x, days, sec):
    s = sun((days + sec / 86400) / 36525)
    d = add(scale(AU, s), scale(-1, x))
    n = math.sqrt(dot(d, d))
    shadow = dot(x, s) < -math.sqrt(dot(x, x) - RE ** 2)
    return 1362 * AU ** 2 / 299792458 / n ** 2, shadow, scale(1 / n, d)


def field(x, theta):
    e, r = to_ecef(theta, x), math.sqrt(dot(x, x))
    k = 3 * dot(DIPOLE, e)
    return to_inertial(theta, [(k * a - b * r ** 2) / r ** 5 for a, b in zip(e, DIPOLE)])


# Model/Structure.lean
MASS = (21.66 * 4 + 2419.56) / 1000
DRAG = 2.0
ABSORPTION = 0.84
PRINCIPAL = [1.378574142e-2, 1.378854578e-2, 5.49370596e-3]
L, W, H = 0.1, 0.1, 0.2
WALLS = [(L / 2, [1, 0, 0], W * H), (L / 2, [-1, 0, 0], W * H), (W / 2, [0, 1, 0], L * H),
         (W / 2, [0, -1, 0], L * H), (H / 2, [0, 0, 1], W * L), (H / 2, [0, 0, -1], W * L)]


def total_moment():
    par, orth, inc = 1.64023e-6, 1.02562e-6, math.pi / 3
    t = [[PRINCIPAL[i] if i == j else 0.1 * PRINCIPAL[i + j - 1] for j in range(3)] for i in range(3)]
    for k in range(4):
        az = math.pi / 4 + k * math.pi / 2
        a = [math.sin(inc) * math.cos(az), math.sin(inc) * math.sin(az), math.cos(inc)]
        for i in range(3):
            for j in range(3):
                t[i][j] += orth * ((i == j) - a[i] * a[j]) + par * a[i] * a[j]
    return t


def inverse(m):
    a, b, c = m
    r, d = [cross(b, c), cross(c, a), cross(a, b)], dot(a, cross(b, c))
    return [[r[j][i] / d for j in range(3)] for i in range(3)]


MOMENT = total_moment()
INVERSE = inverse(MOMENT)


# Model/Dynamics.lean
def vector_field(s, days, sec):
    x, v, q, w = s[:3], s[3:6], s[6:10], s[10:13]
    r = math.sqrt(dot(x, x))
    n = sandwich(q, scale(-1 / r, x))
    torque = scale(3 * MU / r ** 3, cross(n, mul(MOMENT, n)))
    body = [0, 0, 0]
    vrel = [v[0] + OMEGA * x[1], v[1] + OMEGA * x[0], v[2]]
    speed = math.sqrt(dot(vrel, vrel))
    u = sandwich(q, scale(1 / speed, vrel))
    h = height(to_ecef(theta_gmst(days, sec), x))
    assert 400000 <= h < 450000
    pressure = -0.5 * 3.727e-12 * math.exp((400000 - h) / 59400) * DRAG * speed ** 2
    for d, normal, area in WALLS:
        a = max(0, dot(normal, u)) * area
        f = scale(pressure * a, u)
        body, torque = add(body, f), add(torque, cross(scale(a * d, normal), f))
    srp, shadow, su = sun_from(x, days, sec)
    if not shadow:
        for d, normal, area in WALLS:
            c = dot(normal, su)
            a = max(0, c) * area
            f = scale(-srp * a, add(scale(2 * (1 - ABSORPTION) * c, normal), scale(ABSORPTION, su)))
            body, torque = add(body, f), add(torque, cross(scale(a * d, normal), f))
    accel = add(gravity(x), scale(1 / MASS, sandwich_opp(q, body)))
    return v + accel + scale(0.5, product(q, [0] + w)) + mul(INVERSE, add(torque, scale(-1, cross(w, mul(MOMENT, w)))))


def rk4(s, dt, f):
    k1 = f(s)
    k2 = f(add(s, scale(dt / 2, k1)))
    k3 = f(add(s, scale(dt / 2, k2)))
    k4 = f(add(s, scale(dt, k3)))
    return [a + dt * (p + 2 * q + 2 * r + t) / 6 for a, p, q, r, t in zip(s, k1, k2, k3, k4)]


def main():
    days = 7548.5  # 2020-09-01 0:00
    s = [5.581498e6, -3.881737e6, 1.421855e4, 2.708896e3, 3.914674e3, 5.994012e3, 1, 0, 0, 0] + [0.08726646] * 3
    dt, sec, worst = 0.05, 0.0, {}
    for row in ROWS:
        for _ in range(10):
            s = rk4(s, dt, lambda y: vector_field(y, days, sec))
            n = math.sqrt(dot(s[6:10], s[6:10]))
            s[6:10] = [a / n for a in s[6:10]]
            sec += dt
        q = s[6:10]
        b = sandwich(q, field(s[:3], theta_gmst(days, sec)))
        su = sandwich(q, sun_from(s[:3], days, sec)[2])
        for name, model, at in (('position (m)', s[:3], 0), ('velocity (m/s)', s[3:6], 3), ('attitude', q, 6),
                                ('rate (rad/s)', s[10:13], 10), ('field (T)', b, 17), ('sun', su, 20)):
            err = max(abs(a - c) for a, c in zip(model, row[at:at + len(model)]))
            worst[name] = max(worst.get(name, 0), err)
    print(len(ROWS), 'rows,', sec, 's')
    for name, err in worst.items():
        print('%-16s %.2e' % (name, err))


if __name__ == '__main__':
    main()
