import Verif.Geometry.Planar

/-!
# Model of `theseus/embodied/motionmodel/quasi_static_pushing_planar.py`

`QuasiStaticPushingPlanar`, one batch element at a time, over the reals.  `SE2.ops 0 0` is used only
for `between` and its Jacobians, which do not depend on the two thresholds.
-/

namespace Verif.Embodied
open Verif.Geometry Matrix

/-- `D` of `_compute_D` (quasi_static_pushing_planar.py L58-71). -/
def pushD (o2 e2 : SE2) (csq : ℝ) : Matrix (Fin 3) (Fin 3) ℝ :=
  let p := o2.transformTo e2.trans
  !![1, 0, -p.y; 0, 1, p.x; -p.y, p.x, -csq]

/-- `V` of `_compute_V` (quasi_static_pushing_planar.py L112-124). -/
noncomputable def pushV (o1 o2 : SE2) : Fin 3 → ℝ :=
  let v := o2.rot.unrotate ⟨o2.x - o1.x, o2.y - o1.y⟩
  let omega := ((SE2.ops 0 0).between o1 o2).rot.log
  ![v.x, v.y, omega]

/-- `Vp` of `_compute_Vp` (quasi_static_pushing_planar.py L174-186). -/
def pushVp (o2 e1 e2 : SE2) : Fin 3 → ℝ :=
  let v := o2.rot.unrotate ⟨e2.x - e1.x, e2.y - e1.y⟩
  ![v.x, v.y, 0]

/-- `QuasiStaticPushingPlanar.error` (quasi_static_pushing_planar.py L213-241, L278-279). -/
noncomputable def pushError (csq : ℝ) (o1 o2 e1 e2 : SE2) : Fin 3 → ℝ :=
  pushD o2 e2 csq *ᵥ pushV o1 o2 - pushVp o2 e1 e2

/-- `_get_J_D_var` (quasi_static_pushing_planar.py L80-88). -/
def pushJD (J : Matrix (Fin 2) (Fin 3) ℝ) (d : Fin 3) : Matrix (Fin 3) (Fin 3) ℝ :=
  !![0, 0, -J 1 d; 0, 0, J 0 d; -J 1 d, J 0 d, 0]

/-- `_get_J_V_var` (quasi_static_pushing_planar.py L130-139). -/
def pushJV (Jv : Matrix (Fin 2) (Fin 3) ℝ) (Jw : Matrix (Fin 1) (Fin 3) ℝ) (d : Fin 3) :
    Fin 3 → ℝ := ![Jv 0 d, Jv 1 d, Jw 0 d]

/-- `_get_J_Vp_var` (quasi_static_pushing_planar.py L192-200). -/
def pushJVp (Jv : Matrix (Fin 2) (Fin 3) ℝ) (d : Fin 3) : Fin 3 → ℝ := ![Jv 0 d, Jv 1 d, 0]

/-- `_get_J_err_var_` (quasi_static_pushing_planar.py L252-269); an argument that is `None` in the
code is zero here. -/
def pushJErr (D : Matrix (Fin 3) (Fin 3) ℝ) (V : Fin 3 → ℝ)
    (JD : Fin 3 → Matrix (Fin 3) (Fin 3) ℝ) (JV JVp : Fin 3 → Fin 3 → ℝ) :
    Matrix (Fin 3) (Fin 3) ℝ :=
  Matrix.of fun i d => (JD d *ᵥ V) i + (D *ᵥ JV d) i - JVp d i

/-- `QuasiStaticPushingPlanar.jacobians` (quasi_static_pushing_planar.py L76-93, L141-157, L202-211,
L243-276, L281-283): with respect to `obj1`, `obj2`, `eff1`, `eff2`. -/
noncomputable def pushJac (csq : ℝ) (o1 o2 e1 e2 : SE2) :
    Matrix (Fin 3) (Fin 3) ℝ × Matrix (Fin 3) (Fin 3) ℝ × Matrix (Fin 3) (Fin 3) ℝ ×
      Matrix (Fin 3) (Fin 3) ℝ :=
  let D := pushD o2 e2 csq
  let V := pushV o1 o2
  let J_o2angle_o2 := o2.thetaJac
  let J_cp2_e2 := e2.xyJac
  -- D
  let J_cp2o := o2.transformToJac e2.trans
  let J_cp2o_e2 := J_cp2o.2 * J_cp2_e2
  let J_D_o2 := pushJD J_cp2o.1
  let J_D_e2 := pushJD J_cp2o_e2
  -- V
  let J_vxyoo := o2.rot.unrotateJac ⟨o2.x - o1.x, o2.y - o1.y⟩
  let J_vxyoo_o1 := J_vxyoo.2 * (-o1.xyJac)
  let J_vxyoo_o2 := J_vxyoo.1 * J_o2angle_o2 + J_vxyoo.2 * o2.xyJac
  let J_odw := (SE2.ops 0 0).betweenJac o1 o2
  let J_omega_odw := ((SE2.ops 0 0).between o1 o2).thetaJac
  let J_V_o1 := pushJV J_vxyoo_o1 (J_omega_odw * J_odw.1)
  let J_V_o2 := pushJV J_vxyoo_o2 (J_omega_odw * J_odw.2)
  -- Vp
  let J_vxyco := o2.rot.unrotateJac ⟨e2.x - e1.x, e2.y - e1.y⟩
  let J_Vp_o2 := pushJVp (J_vxyco.1 * J_o2angle_o2)
  let J_Vp_e1 := pushJVp (J_vxyco.2 * (-e1.xyJac))
  let J_Vp_e2 := pushJVp (J_vxyco.2 * J_cp2_e2)
  (pushJErr D V (fun _ => 0) J_V_o1 (fun _ => 0), pushJErr D V J_D_o2 J_V_o2 J_Vp_o2,
   pushJErr D V (fun _ => 0) (fun _ => 0) J_Vp_e1, pushJErr D V J_D_e2 (fun _ => 0) J_Vp_e2)

end Verif.Embodied
