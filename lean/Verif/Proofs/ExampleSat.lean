import Verif.Props.Dynamics

set_option autoImplicit false

/-! # A concrete satellite with three torquers, for the examples about the controllers -/

namespace Adcs

open Str Dyn Env Quat JDay Fr
open scoped Matrix

/-- A 2 kg satellite of 10 x 10 x 20 cm with given principal moments, three orthogonal wheels, a coil along
each axis and any instruments. -/
theorem exSatP (p : V3) (hp : ∀ i, 0 < p i) (lim : Bool) (ins : List Instrument) : ∃ sat : Satellite,
    Built sat 2 ![0.1, 0.1, 0.2] 0.8 2.2 ∧ sat.totalMoment.PosDef ∧
    (∃ h3 : sat.nMt = 3, ∀ i : Fin 3, sat.mt (i.cast h3.symm) = coil (exAxes i)) ∧
    sat.totalMoment = Matrix.diagonal ![p 0 + 0.000014, p 1 + 0.000014, p 2 + 0.000014] ∧
    sat.instruments = ins ∧
    RWSystem.init (mkWheels exAxes (fun _ => 1e-5) (fun _ => 2e-6)) 0.002 lim = .ok sat.rw := by
  have ha : ∀ i, npNorm (exAxes i) = 1 := by
    intro i
    rw [npNorm_eq_one]; fin_cases i <;> simp [exAxes, Fin.sum_univ_three, Pi.single_apply]
  obtain ⟨rw', hrw⟩ := (C39_constructible exAxes (fun _ => 1e-5) (fun _ => 2e-6) (fun _ => by norm_num)
    0.002 lim).2 (by
      intro x hx
      apply vec3_ext
      · simpa [exAxes] using hx 0
      · simpa [exAxes] using hx 1
      · simpa [exAxes] using hx 2)
  obtain ⟨sat, hs, h1, -, -, -, h2⟩ := C42_inertia exAxes (fun _ => 1e-5) (fun _ => 2e-6) ha
    (fun _ => by norm_num) (fun _ => by norm_num) 0.002 lim rw' hrw 2 ![0.1, 0.1, 0.2] 0.8 2.2
    p 0 hp
    (fun i : Fin 3 => coil (exAxes i)) ins
  obtain ⟨-, -, e⟩ := satInit_eq hs
  refine ⟨sat, ⟨_, _, _, _, _, _, _, hs⟩, h1, ?_, ?_, ?_, ?_⟩
  · subst e
    exact ⟨rfl, fun i => rfl⟩
  · rw [h2]
    ext i j
    simp only [Fin.sum_univ_three, Matrix.add_apply, Matrix.smul_apply, Matrix.sub_apply, smul_eq_mul,
      Matrix.vecMulVec_apply, exAxes, Matrix.one_apply, Matrix.diagonal_apply, Pi.single_apply]
    fin_cases i <;> fin_cases j <;> norm_num [Fin.ext_iff] <;> rfl
  · rw [e]
  · rw [e]; exact hrw

/-- The same satellite with three different moments. -/
theorem exSat3 (lim : Bool) (ins : List Instrument) : ∃ sat : Satellite,
    Built sat 2 ![0.1, 0.1, 0.2] 0.8 2.2 ∧ sat.totalMoment.PosDef ∧
    (∃ h3 : sat.nMt = 3, ∀ i : Fin 3, sat.mt (i.cast h3.symm) = coil (exAxes i)) ∧
    sat.totalMoment = Matrix.diagonal ![0.012514, 0.012414, 0.006214] ∧ sat.instruments = ins ∧
    RWSystem.init (mkWheels exAxes (fun _ => 1e-5) (fun _ => 2e-6)) 0.002 lim = .ok sat.rw := by
  obtain ⟨sat, h1, h2, h3, h4, h5⟩ := exSatP ![0.0125, 0.0124, 0.0062]
    (by intro i; fin_cases i <;> norm_num) lim ins
  refine ⟨sat, h1, h2, h3, h4.trans ?_, h5⟩
  congr 1
  apply vec3_ext <;> norm_num

end Adcs
